import Verif.Lemmas.Total
import Verif.Props.Json
import Verif.Sample
/-!
# C45: loading terminates
-/

namespace TL

variable {W : World} {C : Config}

/-! ## Specification -/

/-- `x` is inside the data `v`: an element, a character, a key, a value or an attribute, at any depth. -/
inductive Within (v : Val) : Val → Prop
  | self : Within v v
  | elem {w xs x} : Within v w → pyIter w = some xs → x ∈ xs → Within v x
  | value {w x} : Within v w → ValueOf w x → Within v x
  | name {kvs : List (String × Val)} {n : String} {x : Val} : Within v (.ns kvs) → (n, x) ∈ kvs → Within v (.str n)

/-- The types a forward reference can denote while a loader in state `s` loads into `t`: the type the loader knows by that name, or
a type of that name met on the way. -/
def Denotes (W : World) (C : Config) (s : LState) (t : Ty) (n : String) (u : Ty) : Prop := Meets W C s t u ∧ Known W s n u

/-- `v` is a string of one character. -/
def OneChar (v : Val) : Prop := ∃ c : Char, v = .str (String.singleton c)

/-- Loading `v` into a type tries `v` itself with another type: the members of a union (unless it contains the basic class of `v`), the
base of a NewType, the annotations of an Enum, the meaning of a forward reference, and the types with which a user-supplied handler
calls the loader back on `v`.  The only element of a string of one character is itself, so for these the element types of
collections are also tried. -/
inductive Retry (W : World) (C : Config) (s : LState) (t : Ty) (v : Val) : Ty → Ty → Prop
  | member {us u} : ¬ (C.isBasic (typeOf v) = true ∧ typeOf v ∈ us) → u ∈ us → Retry W C s t v (.union us) u
  | newtype {n u} : Retry W C s t v (.newtype n u) u
  | hint {e u} : u ∈ (W.enm e).hints → Retry W C s t v (.enum e) u
  | fref {n u} : Denotes W C s t n u → Retry W C s t v (.fref n) u
  | char {k u} : OneChar v → Retry W C s t v (.coll k u) u
  | charAt {us u} : OneChar v → u ∈ us → Retry W C s t v (.tuple us) u
  | custom {i u u'} : Installed C (.custom i) → (W.customLoad i v u).Asks v u' → Retry W C s t v u u'

/-- No user-supplied handler calls the loader back. -/
def Standalone (W : World) (C : Config) : Prop := ∀ i, Installed C (.custom i) → ∀ v t x u, ¬ (W.customLoad i v t).Asks x u

theorem Config.Default.standalone (hd : C.Default) : Standalone W C := fun i hi => absurd hi (not_installed hd i)

/-- An infinite sequence of types, starting from `u`, each of which is tried after the previous one on the same data. -/
def Endless (R : Ty → Ty → Prop) (u : Ty) : Prop := ∃ f : Nat → Ty, f 0 = u ∧ ∀ i, R (f i) (f (i + 1))

/-! ## Proof -/

theorem acc_of_not_endless {R : Ty → Ty → Prop} {u : Ty} (h : ¬ Endless R u) : Acc (fun a b => R b a) u := by
  apply Classical.byContradiction
  intro hn
  have step : ∀ p : {u // ¬ Acc (fun a b => R b a) u}, ∃ q : {u // ¬ Acc (fun a b => R b a) u}, R p.1 q.1 := by
    rintro ⟨p, hp⟩
    apply Classical.byContradiction
    intro hq
    apply hp
    constructor
    intro y hy
    apply Classical.byContradiction
    intro hy'
    exact hq ⟨⟨y, hy'⟩, hy⟩
  let g : {u // ¬ Acc (fun a b => R b a) u} → {u // ¬ Acc (fun a b => R b a) u} := fun p => Classical.choose (step p)
  have hg : ∀ p, R p.1 (g p).1 := fun p => Classical.choose_spec (step p)
  let f : Nat → {u // ¬ Acc (fun a b => R b a) u} := fun i => Nat.rec ⟨u, hn⟩ (fun _ p => g p) i
  exact h ⟨fun i => (f i).1, rfl, fun i => hg (f i)⟩

mutual
/-- Size of the data; the strings other than those of one character count. -/
def Val.wt : Val → Nat
  | .str s => if s.toList.length = 1 then 0 else 1
  | .bytes _ => 1
  | .seq _ xs => 1 + wtL xs
  | .dict kvs => 1 + wtKV kvs
  | .ns kvs => 1 + wtN kvs
  | .nt _ kvs => 1 + wtN kvs
  | _ => 0
def Val.wtL : List Val → Nat
  | [] => 0
  | x :: xs => x.wt + wtL xs
def Val.wtKV : List (Val × Val) → Nat
  | [] => 0
  | (k, x) :: xs => k.wt + x.wt + wtKV xs
def Val.wtN : List (String × Val) → Nat
  | [] => 0
  | (_, x) :: xs => 1 + x.wt + wtN xs
end

theorem Val.wtL_mem {xs : List Val} {x : Val} (h : x ∈ xs) : x.wt ≤ wtL xs := by
  induction xs with
  | nil => cases h
  | cons y ys ih =>
    simp only [wtL]
    rcases List.mem_cons.1 h with rfl | h
    · omega
    · have := ih h; omega
theorem Val.wtKV_mem {xs : List (Val × Val)} {p : Val × Val} (h : p ∈ xs) : p.1.wt ≤ wtKV xs ∧ p.2.wt ≤ wtKV xs := by
  induction xs with
  | nil => cases h
  | cons y ys ih =>
    obtain ⟨k, x⟩ := y
    simp only [wtKV]
    rcases List.mem_cons.1 h with rfl | h
    · dsimp only; omega
    · have := ih h; omega
theorem Val.wtN_mem {xs : List (String × Val)} {p : String × Val} (h : p ∈ xs) : 1 + p.2.wt ≤ wtN xs := by
  induction xs with
  | nil => cases h
  | cons y ys ih =>
    obtain ⟨k, x⟩ := y
    simp only [wtN]
    rcases List.mem_cons.1 h with rfl | h
    · dsimp only; omega
    · have := ih h; omega

theorem Val.wt_str (s : String) : (Val.str s).wt ≤ 1 := by simp only [wt]; split <;> omega

theorem Val.wt_elem {v x : Val} {xs : List Val} (hs : ¬ OneChar v) (h : pyIter v = some xs) (hx : x ∈ xs) : x.wt < v.wt := by
  cases v <;> simp [pyIter] at h
  case str s =>
    subst h; simp only [List.mem_map] at hx; obtain ⟨c, hc, rfl⟩ := hx
    have : s.toList.length ≠ 1 := by
      intro h
      obtain ⟨a, ha⟩ := List.length_eq_one_iff.1 h
      exact hs ⟨a, by rw [← String.ofList_toList (s := s), ha]; rfl⟩
    simp only [wt]
    rw [if_neg this]
    simp
  case bytes => subst h; simp at hx; obtain ⟨b, _, rfl⟩ := hx; simp [wt]
  case seq => subst h; have := wtL_mem hx; simp only [wt]; omega
  case dict =>
    subst h; simp only [List.mem_map] at hx; obtain ⟨p, hp, rfl⟩ := hx
    have := wtKV_mem hp; simp only [wt]; omega
  case nt =>
    subst h; simp only [List.mem_map] at hx; obtain ⟨p, hp, rfl⟩ := hx
    have := wtN_mem hp; simp only [wt]; omega

/-- The only character of a string of one character. -/
theorem OneChar.elem {v x : Val} {xs : List Val} (h : OneChar v) (hi : pyIter v = some xs) (hx : x ∈ xs) : x = v := by
  obtain ⟨c, rfl⟩ := h
  simp [pyIter] at hi
  subst hi
  simpa using hx

theorem Val.wt_value {v x : Val} (h : ValueOf v x) : x.wt < v.wt := by
  rcases h with ⟨kvs, k, rfl, h⟩ | ⟨kvs, k, rfl, h⟩
  · have := wtKV_mem h; dsimp only at this; simp only [wt]; omega
  · have := wtN_mem h; dsimp only at this; simp only [wt]; omega

theorem dictData_within {v : Val} {kvs : List (Val × Val)} (h : DictData C v kvs) {p : Val × Val} (hp : p ∈ kvs) :
    Within v p.1 ∧ p.1.wt < v.wt ∧ Within v p.2 ∧ p.2.wt < v.wt := by
  rcases h with rfl | ⟨fs, rfl, _, rfl⟩
  · have := Val.wtKV_mem hp
    refine ⟨.elem .self rfl (List.mem_map.2 ⟨p, hp, rfl⟩), ?_, .value .self (Or.inl ⟨kvs, p.1, rfl, hp⟩), ?_⟩ <;> simp only [Val.wt] <;> omega
  · simp only [List.mem_map] at hp
    obtain ⟨q, hq, rfl⟩ := hp
    have := Val.wtN_mem hq
    exact ⟨.name .self hq, by have := Val.wt_str q.1; dsimp only; rw [show (Val.ns fs).wt = 1 + Val.wtN fs from by simp only [Val.wt]]; omega, .value .self (Or.inr ⟨fs, q.1, rfl, hq⟩), by simp only [Val.wt]; omega⟩

theorem Within.trans {v w x : Val} (h1 : Within v w) (h2 : Within w x) : Within v x := by
  induction h2 with
  | self => exact h1
  | elem _ hp hx ih => exact .elem ih hp hx
  | value _ hx ih => exact .value ih hx
  | name _ hx ih => exact .name ih hx

/-- What is inside of data is the data itself or smaller. -/
theorem Within.wt {v x : Val} (h : Within v x) : x = v ∨ x.wt < v.wt := by
  have next : ∀ {w y : Val}, (w = v ∨ w.wt < v.wt) → (y = w ∨ y.wt < w.wt) → y = v ∨ y.wt < v.wt := by
    rintro w y (rfl | h1) (rfl | h2)
    · exact Or.inl rfl
    · exact Or.inr h2
    · exact Or.inr h1
    · exact Or.inr (by omega)
  induction h with
  | self => exact Or.inl rfl
  | elem _ hp hx ih =>
    rename_i w xs x _
    by_cases ho : OneChar w
    · exact next ih (Or.inl (ho.elem hp hx))
    · exact next ih (Or.inr (Val.wt_elem ho hp hx))
  | value _ hx ih => exact next ih (Or.inr (Val.wt_value hx))
  | name _ hx ih =>
    rename_i kvs n x _
    refine next ih (Or.inr ?_)
    have h1 := Val.wt_str n
    have h2 := Val.wtN_mem hx
    rw [show (Val.ns kvs).wt = 1 + Val.wtN kvs from by simp only [Val.wt]]
    dsimp only at h2
    omega

/-- No infinite sequence of calls starts from data if none is made of the same data. -/
theorem acc_calls {s : LState} {t : Ty} (n : Nat) : ∀ (v : Val), v.wt < n →
    (∀ i, Installed C (.custom i) → ∀ w, Within v w → ∀ u, Meets W C s t u → ∀ x u', (W.customLoad i w u).Asks x u' → Within w x) →
    (∀ w, Within v w → ∀ u, Meets W C s t u → Acc (fun a b => Retry W C s t w b a) u) →
    ∀ u, Meets W C s t u → Acc (fun q p : Val × Ty => SubCall W C (Denotes W C s t) p.1 p.2 q.1 q.2) (v, u) := by
  induction n with
  | zero => intro v hv; omega
  | succ n ihn =>
    intro v hv hcu hwf u hu
    have smaller : ∀ x, Within v x → x.wt < v.wt → ∀ u, Meets W C s t u → Acc (fun q p : Val × Ty => SubCall W C (Denotes W C s t) p.1 p.2 q.1 q.2) (x, u) :=
      fun x hx hlt => ihn x (by omega) (fun i hi w hw => hcu i hi w (hx.trans hw)) (fun w hw => hwf w (hx.trans hw))
    have hacc := hwf v .self u hu
    induction hacc with
    | intro u _ ih =>
      constructor
      rintro ⟨x, u'⟩ hc
      have hu' : Meets W C s t u' := hc.closed (Meets.closed s t) hu
      dsimp only at hc
      cases hc with
      | elem _ hp hx =>
        by_cases ho : OneChar v
        · rw [ho.elem hp hx]; exact ih _ (.char ho) hu'
        · exact smaller x (.elem .self hp hx) (Val.wt_elem ho hp hx) _ hu'
      | item _ hp hx hm =>
        by_cases ho : OneChar v
        · rw [ho.elem hp hx]; exact ih _ (.charAt ho hm) hu'
        · exact smaller x (.elem .self hp hx) (Val.wt_elem ho hp hx) _ hu'
      | key hd hp => exact smaller _ (dictData_within hd hp).1 (dictData_within hd hp).2.1 _ hu'
      | val hd hp => exact smaller _ (dictData_within hd hp).2.2.1 (dictData_within hd hp).2.2.2 _ hu'
      | member h1 h2 => exact ih _ (.member h1 h2) hu'
      | newtype => exact ih _ .newtype hu'
      | hint h1 => exact ih _ (.hint h1) hu'
      | field hx _ _ => exact smaller x (.value .self hx) (Val.wt_value hx) _ hu'
      | fref h1 => exact ih _ (.fref h1) hu'
      | custom hi ha =>
        have hw := hcu _ hi v .self u hu x u' ha
        rcases hw.wt with rfl | hlt
        · exact ih _ (.custom hi ha) hu'
        · exact smaller x hw hlt _ hu'

/-! ## Theorems -/

/-- **C45** `load` returns or raises, on data of any size and types of any depth, if no infinite sequence of types is tried on the same part
of the data.  User-supplied handlers are allowed, which may call the loader back on the data they are given and on what is inside of it. -/
theorem C45_terminates {s : LState} (hs : Reachable W C s) (v : Val) (t : Ty)
    (hcu : ∀ i, Installed C (.custom i) → ∀ w, Within v w → ∀ u, Meets W C s t u → ∀ x u', (W.customLoad i w u).Asks x u' → Within w x)
    (h : ∀ w, Within v w → ∀ u, Meets W C s t u → ¬ Endless (Retry W C s t w) u) :
    (∃ r s', Loads W C s v t r s') ∨ ∃ e s', Raises W C s v t e s' := by
  have hacc := acc_calls (W := W) (C := C) (s := s) (t := t) (v.wt + 1) v (by omega) hcu
    (fun w hw u hu => acc_of_not_endless (h w hw u hu)) t .self
  have := Tot.loadWith (rec := fun n => run W C n) (Meets.closed s t) (x := v) (u := t) .self
    (fun hh hi => Tot.run (Meets.closed s t) hacc .self hh hi) none s (hs.good_meets t)
  obtain ⟨N, ⟨r, s', _, _, h3⟩ | ⟨e, s', _, h3⟩⟩ := this
  · exact Or.inl ⟨r, s', N, h3 N (Nat.le_refl _)⟩
  · exact Or.inr ⟨e, s', N, h3 N (Nat.le_refl _)⟩

/-- A handler of the user that calls the loader back on the first element of its data (`Sample.callback`): loading trees terminates. -/
example (v : Val) : (∃ r s', Loads Sample.WB Sample.CB (fresh []) v (.strcons "Tree") r s') ∨
    ∃ e s', Raises Sample.WB Sample.CB (fresh []) v (.strcons "Tree") e s' := by
  have hask : ∀ i w x u', (Sample.WB.customLoad i w (.strcons "Tree")).Asks x u' → (∃ xs, w = .list (x :: xs)) ∧ u' = .strcons "Tree" := by
    intro i w x u' ha
    simp only [Sample.WB, Sample.callback] at ha
    rw [if_neg (by decide), if_pos trivial] at ha
    split at ha
    · cases ha with
      | here => exact ⟨⟨_, rfl⟩, rfl⟩
      | @later _ _ _ _ o _ _ h => cases o <;> cases h
    · cases ha
  have hm : ∀ u, Meets Sample.WB Sample.CB (fresh []) (.strcons "Tree") u → u = .strcons "Tree" := by
    intro u h
    induction h with
    | self => rfl
    | known h => obtain ⟨fr, h1, h2⟩ := h; cases h1; cases h2
    | custom _ _ ha ih => subst ih; exact (hask _ _ _ _ ha).2
    | tuple _ _ ih => cases ih
    | union _ _ ih => cases ih
    | enum _ _ ih => cases ih
    | field _ _ _ ih => cases ih
    | _ ih => rename_i ih; cases ih
  refine C45_terminates (Reachable.new (some []) []) v _ ?_ ?_
  · intro i _ w _ u hu x u' ha
    rw [hm u hu] at ha
    obtain ⟨⟨xs, rfl⟩, _⟩ := hask _ _ _ _ ha
    exact .elem .self rfl (by simp)
  · rintro w _ u hu ⟨f, rfl, hf⟩
    have h0 := hf 0
    rw [hm _ hu] at h0
    cases h0 with
    | custom _ ha =>
      obtain ⟨⟨xs, h⟩, _⟩ := hask _ _ _ _ ha
      have := congrArg sizeOf h
      simp at this
      omega

/-- Types without forward references and enums, other than inside of classes and dictionaries. -/
inductive Flat : Ty → Prop
  | coll {k u} : Flat u → Flat (.coll k u)
  | tuple {us} : (∀ u ∈ us, Flat u) → Flat (.tuple us)
  | union {us} : (∀ u ∈ us, Flat u) → Flat (.union us)
  | newtype {n u} : Flat u → Flat (.newtype n u)
  | other {t} : (∀ k u, t ≠ .coll k u) → (∀ us, t ≠ .tuple us) → (∀ us, t ≠ .union us) → (∀ n u, t ≠ .newtype n u) →
      (∀ e, t ≠ .enum e) → (∀ n, t ≠ .fref n) → Flat t

theorem Flat.acc (hcu : Standalone W C) {s : LState} {t u : Ty} {v : Val} (h : Flat u) : Acc (fun a b => Retry W C s t v b a) u := by
  induction h with
  | coll _ ih => exact ⟨_, fun w hr => by cases hr with | char => exact ih | custom hi ha => exact absurd ha (hcu _ hi _ _ _ _)⟩
  | tuple _ ih => exact ⟨_, fun w hr => by cases hr with | charAt _ h => exact ih _ h | custom hi ha => exact absurd ha (hcu _ hi _ _ _ _)⟩
  | union _ ih => exact ⟨_, fun w hr => by cases hr with | member _ h => exact ih _ h | custom hi ha => exact absurd ha (hcu _ hi _ _ _ _)⟩
  | newtype _ ih => exact ⟨_, fun w hr => by cases hr with | newtype => exact ih | custom hi ha => exact absurd ha (hcu _ hi _ _ _ _)⟩
  | other h1 h2 h3 h4 h5 h6 =>
    refine ⟨_, fun w hr => ?_⟩
    cases hr with
    | member => exact absurd rfl (h3 _)
    | newtype => exact absurd rfl (h4 _ _)
    | hint => exact absurd rfl (h5 _)
    | fref => exact absurd rfl (h6 _)
    | char => exact absurd rfl (h1 _ _)
    | charAt => exact absurd rfl (h2 _)
    | custom hi ha => exact absurd ha (hcu _ hi _ _ _ _)

/-- Types whose retries only lead to smaller types. -/
theorem acc_structural (hcu : Standalone W C) {s : LState} {t : Ty} {v : Val} (hf : ∀ n u, Meets W C s t (.fref n) → Denotes W C s t n u → Flat u)
    (he : ∀ e u, Meets W C s t (.enum e) → u ∈ (W.enm e).hints → Flat u) (n : Nat) : ∀ u, sizeOf u < n → Meets W C s t u →
    Acc (fun a b => Retry W C s t v b a) u := by
  induction n with
  | zero => intro u h; omega
  | succ n ih =>
    intro u hu hm
    constructor
    intro w hr
    cases hr with
    | member _ hw => exact ih _ (by have := List.sizeOf_lt_of_mem hw; simp at hu; omega) (.union hm hw)
    | newtype => exact ih _ (by simp at hu; omega) (.newtype hm)
    | hint h => exact (he _ _ hm h).acc hcu
    | fref h => exact (hf _ _ hm h).acc hcu
    | char _ => exact ih _ (by simp at hu; omega) (.coll hm)
    | charAt _ hw => exact ih _ (by have := List.sizeOf_lt_of_mem hw; simp at hu; omega) (.tuple hm hw)
    | custom hi ha => exact absurd ha (hcu _ hi _ _ _ _)

/-- An accessible type starts no infinite sequence. -/
theorem not_endless_of_acc {R : Ty → Ty → Prop} {u : Ty} (h : Acc (fun a b => R b a) u) : ¬ Endless R u := by
  induction h with
  | intro u _ ih =>
    rintro ⟨f, rfl, hf⟩
    exact ih (f 1) (hf 0) ⟨fun i => f (i + 1), rfl, fun i => hf (i + 1)⟩

/-- **C45** In particular `load` terminates on all data for every type whose forward references and enum annotations stand for types that
do not contain others, except inside of classes and dictionaries, however the classes refer to each other, if no user-supplied handler calls
the loader back. -/
theorem C45_classes (hcu : Standalone W C) {s : LState} (hs : Reachable W C s) (v : Val) (t : Ty)
    (hf : ∀ n u, Meets W C s t (.fref n) → Denotes W C s t n u → Flat u)
    (he : ∀ e u, Meets W C s t (.enum e) → u ∈ (W.enm e).hints → Flat u) :
    (∃ r s', Loads W C s v t r s') ∨ ∃ e s', Raises W C s v t e s' :=
  C45_terminates hs v t (fun i hi _ _ _ _ _ _ ha => absurd ha (hcu i hi _ _ _ _)) (fun _ _ u hu => not_endless_of_acc (acc_structural hcu hf he (sizeOf u + 1) u (by omega) hu))

/-- The recursive class `Node`: loading any data into a list of them terminates. -/
example (v : Val) : (∃ r s', Loads Sample.W Sample.C (fresh []) v (.coll .list (.obj 7)) r s') ∨
    ∃ e s', Raises Sample.W Sample.C (fresh []) v (.coll .list (.obj 7)) e s' := by
  have hm : ∀ u, Meets Sample.W Sample.C (fresh []) (.coll .list (.obj 7)) u → u = .coll .list (.obj 7) ∨ u = .obj 7 ∨ u = .prim .int ∨
      u = .union [.fref "Node", .prim .none] ∨ u = .fref "Node" ∨ u = .prim .none := by
    intro u h
    induction h with
    | self => simp
    | known hb => obtain ⟨fr, h1, h2⟩ := hb; cases h1; cases h2
    | coll _ ih => simp at ih; simp [ih]
    | tuple _ _ ih => simp at ih
    | dictKey _ ih => simp at ih
    | dictVal _ ih => simp at ih
    | union _ hu ih => simp at ih; subst ih; simp at hu; rcases hu with rfl | rfl <;> simp
    | newtype _ ih => simp at ih
    | enum _ _ ih => simp at ih
    | field _ hf ht ih =>
      simp at ih; subst ih
      simp [Sample.W, Sample.cls, Sample.clsNode] at hf
      rcases hf with rfl | rfl <;> cases ht with
      | declared => simp
      | converter _ hk => cases hk
      | untyped _ hk => cases hk
      | manyHints _ hk => cases hk
    | custom hi _ _ => exact absurd hi (not_installed (C := Sample.C) rfl _)
  refine C45_classes (Config.Default.standalone (C := Sample.C) rfl) (Reachable.new (some []) []) v _ ?_ ?_
  · intro n u hn hd
    have h1 := hm _ hn
    simp at h1
    subst h1
    obtain ⟨h2, h3 | h3⟩ := hd
    · obtain ⟨fr, h4, h5⟩ := h3; cases h4; cases h5
    · rcases hm u h2 with rfl | rfl | rfl | rfl | rfl | rfl <;> simp [Sample.W] at h3
      exact .other (fun _ _ h => (by cases h)) (fun _ h => (by cases h)) (fun _ h => (by cases h)) (fun _ _ h => (by cases h))
        (fun _ h => (by cases h)) (fun _ h => (by cases h))
  · intro e u he _
    have := hm _ he
    simp at this

/-- **C45** The recursive JSON type (`C48`) terminates on all data, strings included: they are accepted at once. -/
theorem C45_json (hcu : Standalone W C) {s : LState} (hs : Reachable W C s) {n : String} (hb : .str ∈ C.basictypes) (hn : ∀ u, W.tyName u ≠ some n)
    (hf : s.frefs = some [(n, jsonTy n)]) (v : Val) :
    (∃ r s', Loads W C s v (.fref n) r s') ∨ ∃ e s', Raises W C s v (.fref n) e s' := by
  have hbd : ∀ m u, Bound s m u → u = jsonTy n := by
    rintro m u ⟨fr, h1, h2⟩
    rw [hf] at h1; cases h1
    simp only [aget] at h2
    split at h2
    · cases h2; rfl
    · cases h2
  have hm : ∀ u, Meets W C s (.fref n) u → u = .fref n ∨ u = jsonTy n ∨ (∃ p, u = .prim p) ∨ u = .coll .list (.fref n) ∨ u = .dict (.prim .str) (.fref n) := by
    intro u h
    induction h with
    | self => simp
    | known h => simp [hbd _ _ h]
    | coll _ ih => simp [jsonTy] at ih; simp [ih]
    | tuple _ _ ih => simp [jsonTy] at ih
    | dictKey _ ih => simp [jsonTy] at ih; simp [ih]
    | dictVal _ ih => simp [jsonTy] at ih; simp [ih]
    | newtype _ ih => simp [jsonTy] at ih
    | enum _ _ ih => simp [jsonTy] at ih
    | union _ hu ih =>
      simp [jsonTy] at ih; subst ih
      simp at hu
      rcases hu with rfl | rfl | rfl | rfl | rfl | rfl | rfl <;> simp
    | field _ _ _ ih => simp [jsonTy] at ih
    | custom hi _ ha => exact absurd ha (hcu _ hi _ _ _ _)
  refine C45_terminates hs v _ (fun i hi _ _ _ _ _ _ ha => absurd ha (hcu i hi _ _ _ _)) ?_
  intro w _ u hu
  apply not_endless_of_acc
  have hprim : ∀ p, Acc (fun a b => Retry W C s (.fref n) w b a) (.prim p) := fun p => ⟨_, fun _ h => by cases h with | custom hi ha => exact absurd ha (hcu _ hi _ _ _ _)⟩
  have hdict : Acc (fun a b => Retry W C s (.fref n) w b a) (.dict (.prim .str) (.fref n)) := ⟨_, fun _ h => by cases h with | custom hi ha => exact absurd ha (hcu _ hi _ _ _ _)⟩
  have hjson : Acc (fun a b => Retry W C s (.fref n) w b a) (jsonTy n) := by
    refine ⟨_, fun a ha => ?_⟩
    by_cases hw : typeOf w = .prim .str
    · cases ha with
      | custom hi ha => exact absurd ha (hcu _ hi _ _ _ _)
      | member h _ => exact absurd ⟨by rw [hw]; simp [Config.isBasic, hb], by rw [hw]; simp⟩ h
    · cases ha with
      | custom hi ha => exact absurd ha (hcu _ hi _ _ _ _)
      | member _ h =>
        simp at h
        rcases h with rfl | rfl | rfl | rfl | rfl | rfl | rfl
        · exact hprim _
        · exact hprim _
        · exact hprim _
        · exact hprim _
        · exact hprim _
        · refine ⟨_, fun a ha => ?_⟩
          cases ha with
          | char h => obtain ⟨c, rfl⟩ := h; exact absurd rfl hw
          | custom hi ha => exact absurd ha (hcu _ hi _ _ _ _)
        · exact hdict
  have hfref : Acc (fun a b => Retry W C s (.fref n) w b a) (.fref n) := by
    refine ⟨_, fun a ha => ?_⟩
    cases ha with
    | custom hi ha => exact absurd ha (hcu _ hi _ _ _ _)
    | fref hd =>
      obtain ⟨_, h | h⟩ := hd
      · rw [hbd _ _ h]; exact hjson
      · exact absurd h (hn _)
  rcases hm u hu with rfl | rfl | ⟨p, rfl⟩ | rfl | rfl
  · exact hfref
  · exact hjson
  · exact hprim p
  · refine ⟨_, fun a ha => ?_⟩
    cases ha with
    | char h => exact hfref
    | custom hi ha => exact absurd ha (hcu _ hi _ _ _ _)
  · exact hdict

example (v : Val) : (∃ r s', Loads Sample.W Sample.C { frefs := some [("Json", jsonTy "Json")] } v (.fref "Json") r s') ∨
    ∃ e s', Raises Sample.W Sample.C { frefs := some [("Json", jsonTy "Json")] } v (.fref "Json") e s' := by
  have hu : ∀ i : Nat, (Sample.cls i).name ≠ "Json" := by
    intro i
    unfold Sample.cls
    split <;> try decide
    show "Empty" ++ toString i ≠ "Json"
    intro h
    have := congrArg String.toList h
    simp at this
  refine C45_json (Config.Default.standalone (C := Sample.C) rfl) (Reachable.new _ []) (n := "Json") (by decide) ?_ rfl v
  intro u h
  cases u <;> simp [Sample.W] at h
  case obj c => exact hu c h
  case prim p => cases p <;> simp at h

/-! ## Types that do not terminate -/

/-- `u` makes loading `v` try `v` again, with `u'`: a NewType, a forward reference, a union that does not accept `v` at once and tries `u'`
first, and for strings of one character also the collections (their only element is `v`). -/
inductive Loops (C : Config) (s : LState) (v : Val) : Ty → Ty → Prop
  | newtype {n u} : Loops C s v (.newtype n u) u
  | fref {n u} : Bound s n u → Loops C s v (.fref n) u
  | member {us u rest} : v.isDict = false → ¬ (C.isBasic (typeOf v) = true ∧ typeOf v ∈ us) → sortArgs C us = u :: rest → Loops C s v (.union us) u
  | char {k u} : OneChar v → (∀ p, u ≠ .prim p) → (∀ us, u ≠ .union us) → Loops C s v (.coll k u) u

theorem Bound.cacheReg {s : LState} {n : String} {u : Ty} (h : Bound s n u) (t : Ty) (hh : Handler) : Bound (cacheReg W t hh s) n u := by
  unfold TL.cacheReg
  split
  · exact h
  · obtain ⟨fr, h1, h2⟩ := h
    unfold registerName
    dsimp only
    rw [h1]
    dsimp only
    split
    · exact ⟨fr, rfl, h2⟩
    · split
      · exact ⟨fr, rfl, h2⟩
      · rename_i m _ hm
        refine ⟨_, rfl, ?_⟩
        rw [aget_aset]
        split
        · rename_i hmn; subst hmn; rw [hm] at h2; cases h2
        · exact h2

theorem Bound.cacheIdx {s : LState} {n : String} {u : Ty} (h : Bound s n u) (t : Ty) (hh : Handler) : Bound (cacheIdx t hh s) n u := by
  obtain ⟨fr, h1, h2⟩ := h
  exact ⟨fr, by rw [cacheIdx_frefs]; exact h1, h2⟩

theorem run_div (hd : C.Default) {s : LState} {v : Val} {S : Ty → Prop} (hS : ∀ u, S u → ∃ u', Loops C s v u u' ∧ S u') (n : Nat) :
    ∀ u, S u → ∀ h, pick W C u = .ok h → ∀ s', Coh W C s' → (∀ n u, Bound s n u → Bound s' n u) → run W C n h v u s' = .div := by
  have pickS : ∀ u, S u → ∃ h, pick W C u = .ok h := by
    intro u hu
    obtain ⟨u', hl, _⟩ := hS u hu
    cases hl with
    | newtype => exact ⟨_, pick_newtype hd _ _⟩
    | fref => exact ⟨_, pick_fref hd _⟩
    | member => exact ⟨_, pick_union hd _⟩
    | char => exact ⟨_, pick_coll hd _ _⟩
  induction n with
  | zero => intros; rfl
  | succ n ih =>
    intro u hu h hp s' hc hb
    obtain ⟨u', hl, hu'⟩ := hS u hu
    obtain ⟨h', hp'⟩ := pickS u' hu'
    have hload : ∀ (s' : LState) a, Coh W C s' → (∀ n u, Bound s n u → Bound s' n u) → loadWith W C (run W C n) v u' a s' = .div := by
      intro s' a hc hb
      rw [loadWith_eq hc, hp']
      dsimp only
      rw [ih u' hu' h' hp' _ (hc.ext (cacheReg_ext hp')) (fun n u h => (hb n u h).cacheReg u' h')]
    have hcall : ∀ (s' : LState) e, Coh W C s' → (∀ n u, Bound s n u → Bound s' n u) →
        (TL.resolve W C u' e >>= fun h => run W C n h v u' : L Val) s' = .div := by
      intro s' e hc hb
      rw [M.bind_apply, resolve_eq hc, hp']
      exact ih u' hu' h' hp' _ (hc.ext (cacheIdx_ext hp')) (fun n u h => (hb n u h).cacheIdx u' h')
    cases hl with
    | newtype =>
      rw [pick_newtype hd] at hp; cases hp
      exact hload s' none hc hb
    | fref hbn =>
      rw [pick_fref hd] at hp; cases hp
      rename_i m
      obtain ⟨fr, h1, h2⟩ := hb _ _ hbn
      show forwardrefload W C (run W C n) v (.fref m) s' = .div
      simp only [forwardrefload, M.bind_apply, M.get_apply, h1, h2]
      exact hload s' _ hc hb
    | member hnd hne hso =>
      rw [pick_union hd] at hp; cases hp
      rename_i us rest
      show unionload W C (run W C n) v (.union us) s' = .div
      unfold unionload
      dsimp only
      rw [if_neg (by simpa using hne), M.bind_apply]
      have : unionOrder W C v us s' = .ok (u' :: rest) s' := by
        unfold unionOrder
        cases v <;> first | exact Bool.noConfusion hnd | (dsimp only; rw [hso]; rfl)
      rw [this]
      dsimp only
      rw [M.bind_apply]
      unfold unionTry
      rw [M.handle_apply, hcall s' _ hc hb]
    | char ho hnp hnu =>
      obtain ⟨c, rfl⟩ := ho
      rename_i k
      have hit : ∀ k', iterload W C (run W C n) k' (.str (String.singleton c)) (.coll k u') s' = .div := by
        intro k'
        have hi : pyIter (.str (String.singleton c)) = some [.str (String.singleton c)] := by simp [pyIter]
        unfold iterload
        rw [if_neg (by simp [Val.isDict])]
        dsimp only
        rw [M.bind_apply, resolve_eq hc, hp']
        dsimp only
        rw [hi]
        dsimp only
        rw [M.bind_apply]
        unfold iterElems
        rw [M.handle_apply]
        have : iterElem C (run W C n) h' u' (.str (String.singleton c)) = run W C n h' (.str (String.singleton c)) u' := by
          cases u' <;> first | rfl | exact absurd rfl (hnp _) | exact absurd rfl (hnu _)
        rw [this, ih u' hu' h' hp' _ (hc.ext (cacheIdx_ext hp')) (fun n u h => (hb n u h).cacheIdx u' h')]
      rw [pick_coll hd] at hp; cases hp
      cases k <;> first | exact hit _ | exact hit .tuple

/-- **C45** Types that lead back to themselves on the same data: `load` does not terminate. -/
theorem C45_circular (hd : C.Default) {s : LState} (hs : Reachable W C s) (v : Val) (S : Ty → Prop)
    (hS : ∀ u, S u → ∃ u', Loops C s v u u' ∧ S u') {t : Ty} (ht : S t) : Diverges W C s v t := by
  intro n
  rw [load_eq hs.coh]
  cases hp : pick W C t with
  | error c =>
    exfalso
    obtain ⟨u', hl, _⟩ := hS t ht
    cases hl with
    | newtype => rw [pick_newtype hd] at hp; cases hp
    | fref => rw [pick_fref hd] at hp; cases hp
    | member => rw [pick_union hd] at hp; cases hp
    | char => rw [pick_coll hd] at hp; cases hp
  | ok h =>
    dsimp only
    rw [run_div hd hS n t ht h hp _ (hs.coh.ext (cacheReg_ext hp)) (fun n u hb => hb.cacheReg t h)]

/-- `A = Union['A', int]`: no data but an int is ever loaded or refused. -/
theorem C45_union_counterexample (s : String) :
    Diverges Sample.W Sample.C { frefs := some [("A", .union [.fref "A", .prim .int])] } (.str s) (.fref "A") := by
  refine C45_circular (C := Sample.C) rfl (Reachable.new _ []) _ (fun u => u = .fref "A" ∨ u = .union [.fref "A", .prim .int]) ?_ (Or.inl rfl)
  rintro u (rfl | rfl)
  · exact ⟨_, .fref ⟨_, rfl, rfl⟩, Or.inr rfl⟩
  · exact ⟨.fref "A", .member (rest := [.prim .int]) rfl (by simp [typeOf]) rfl, Or.inl rfl⟩

/-- `A = List['A']` is not circular, and yet it does not terminate on a string of one character. -/
theorem C45_char_counterexample (c : Char) :
    Diverges Sample.W Sample.C { frefs := some [("A", .coll .list (.fref "A"))] } (.str (String.singleton c)) (.fref "A") := by
  refine C45_circular (C := Sample.C) rfl (Reachable.new _ []) _ (fun u => u = .fref "A" ∨ u = .coll .list (.fref "A")) ?_ (Or.inl rfl)
  rintro u (rfl | rfl)
  · exact ⟨_, .fref ⟨_, rfl, rfl⟩, Or.inr rfl⟩
  · exact ⟨.fref "A", .char ⟨c, rfl⟩ (fun _ h => (by cases h)) (fun _ h => (by cases h)), Or.inl rfl⟩

/-- On data without strings that type terminates: `C45_terminates` applies. -/
example : (∃ r s', Loads Sample.W Sample.C { frefs := some [("A", .coll .list (.fref "A"))] } (.list [.list [], .list [.list []]]) (.fref "A") r s') ∨
    ∃ e s', Raises Sample.W Sample.C { frefs := some [("A", .coll .list (.fref "A"))] } (.list [.list [], .list [.list []]]) (.fref "A") e s' := by
  have hm : ∀ u, Meets Sample.W Sample.C { frefs := some [("A", .coll .list (.fref "A"))] } (.fref "A") u → u = .fref "A" ∨ u = .coll .list (.fref "A") := by
    intro u h
    induction h with
    | self => simp
    | known hb =>
      obtain ⟨fr, h1, h2⟩ := hb; cases h1
      simp only [aget] at h2
      split at h2
      · cases h2; simp
      · cases h2
    | coll _ ih => simp at ih; simp [ih]
    | tuple _ _ ih => simp at ih
    | dictKey _ ih => simp at ih
    | dictVal _ ih => simp at ih
    | union _ hu ih => simp at ih
    | newtype _ ih => simp at ih
    | enum _ _ ih => simp at ih
    | field _ hf ht ih => simp at ih
    | custom hi _ _ => exact absurd hi (not_installed (C := Sample.C) rfl _)
  have hw : ∀ w, Within (.list [.list [], .list [.list []]]) w → ∃ xs, w = .list xs ∧ ∀ x ∈ xs, ∃ ys, x = .list ys ∧ ∀ y ∈ ys, y = .list [] := by
    intro w h
    induction h with
    | self => exact ⟨_, rfl, by simp⟩
    | elem _ hp hx ih =>
      obtain ⟨xs, rfl, h⟩ := ih
      cases hp
      obtain ⟨ys, rfl, h'⟩ := h _ hx
      refine ⟨ys, rfl, fun y hy => ⟨[], h' y hy, by simp⟩⟩
    | value _ hx ih => obtain ⟨xs, rfl, h⟩ := ih; rcases hx with ⟨_, _, h, _⟩ | ⟨_, _, h, _⟩ <;> cases h
    | name _ hx ih => obtain ⟨xs, h, _⟩ := ih; cases h
  refine C45_terminates (Reachable.new _ []) _ _ (fun i hi => absurd hi (not_installed (C := Sample.C) rfl i)) ?_
  intro w hww u hu
  obtain ⟨xs, rfl, _⟩ := hw w hww
  apply not_endless_of_acc
  have hcoll : Acc (fun a b => Retry Sample.W Sample.C { frefs := some [("A", .coll .list (.fref "A"))] } (.fref "A") (.list xs) b a) (.coll .list (.fref "A")) :=
    ⟨_, fun a ha => by cases ha with | char h => obtain ⟨c, h⟩ := h; cases h
                                     | custom hi _ => exact absurd hi (not_installed (C := Sample.C) rfl _)⟩
  rcases hm u hu with rfl | rfl
  · refine ⟨_, fun a ha => ?_⟩
    cases ha with
    | custom hi _ => exact absurd hi (not_installed (C := Sample.C) rfl _)
    | fref hd =>
      obtain ⟨h1, h2 | h2⟩ := hd
      · rcases hm _ h1 with rfl | rfl
        · obtain ⟨fr, h3, h4⟩ := h2; cases h3; simp [aget] at h4
        · exact hcoll
      · rcases hm _ h1 with rfl | rfl <;> simp [Sample.W] at h2
  · exact hcoll

end TL
