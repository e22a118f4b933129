import Verif.Props.UnionTotal
/-!
# C05 and C10, when data and type get along

`C05_sturdy` asks that the types cannot crash, whatever the data.  Here the same is asked of the data at hand only.
-/

namespace TL

variable {W : World} {C : Config}

/-- What loading `x` into `u` raises can come out of loading `v` into `t` as it is: `u` is a part of `t`, `x` the corresponding part of `v`, and there is
no list, set or tuple in between (what their elements raise is wrapped).  `F n u` says that the forward reference `n` may stand for `u`. -/
inductive Exposes (W : World) (C : Config) (F : String → Ty → Prop) (v : Val) (t : Ty) : Val → Ty → Prop
  | self : Exposes W C F v t v t
  | member {x ts u} : Exposes W C F v t x (.union ts) → u ∈ ts → Exposes W C F v t x u
  | newtype {x n u} : Exposes W C F v t x (.newtype n u) → Exposes W C F v t x u
  | fref {x n u} : Exposes W C F v t x (.fref n) → F n u → Exposes W C F v t x u
  | key {x kt vt kvs p} : Exposes W C F v t x (.dict kt vt) → DictData C x kvs → p ∈ kvs → Exposes W C F v t p.1 kt
  | value {x kt vt kvs p} : Exposes W C F v t x (.dict kt vt) → DictData C x kvs → p ∈ kvs → Exposes W C F v t p.2 vt
  | field {x c kvs p f u} : Exposes W C F v t x (.obj c) → DictData C x kvs → p ∈ kvs → f ∈ (W.cls c).fields → FieldTy (W.cls c).kind f u →
      Exposes W C F v t p.2 u

/-- Loading the value `x` into the type `u` is not one of the known crashes: a fixed-size tuple is given something that can be iterated; the tag of a
union is hashable; dictionary keys are loaded into a type with a hash; with `failonextra` the keys given to a class are strings; constructors of
classes raise TypeError and ValueError only; dates, intervals and patterns raise what the handlers expect. -/
def Suits (W : World) (C : Config) (F : String → Ty → Prop) (x : Val) : Ty → Prop
  | .tuple _ => pyIter x ≠ none
  | .bare _ => False
  | .dt k => ∀ c, dtParse W k x = .error c → ¬ Odd c
  | .timedelta => ∀ c, tdSeconds W x = .error c → c.isType = true
  | .pattern _ => ∀ c, patCompile W x = .error c → c = .reError ∨ c.isType = true
  | .dict kt _ => (∀ kvs, DictData C x kvs → kvs = []) ∨ ¬ Unhashy W C F kt
  | .union ts => ¬ UnhashableTag W x ts
  | .obj c => (∀ fs y, W.initHook c fs = .error y → ¬ Odd y) ∧ (∀ f ∈ (W.cls c).fields, ∀ cv, f.conv = some cv → cv.params ≠ []) ∧
      (C.failonextra = true → ∀ kvs p, DictData C x kvs → p ∈ kvs → strKey p.1 ≠ none)
  | _ => True

/-- A sturdy type suits every value, but for the keys given to classes when `failonextra` is set. -/
theorem Sturdy.suits {F : String → Ty → Prop} {u : Ty} (h : Sturdy W C F u) {x : Val}
    (hk : C.failonextra = true → ∀ kvs p, DictData C x kvs → p ∈ kvs → strKey p.1 ≠ none) : Suits W C F x u := by
  cases u
  case tuple => exact h.elim
  case bare => exact h.elim
  case dt => exact h.elim
  case timedelta => exact h.elim
  case obj c => exact ⟨h.1, h.2, hk⟩
  case dict => exact Or.inr h
  case union ts => rintro ⟨kvs, k, y, _, h2, _⟩; exact h k h2
  case pattern a =>
    intro c hc
    have h : ∀ x c, W.reCompile x = .error c → c = .reError ∨ c.isType = true := h
    unfold patCompile at hc
    split at hc
    · cases hc
    · rename_i y
      cases hr : W.reCompile (.str y) with
      | ok u => rw [hr] at hc; cases hc
      | error c => rw [hr] at hc; cases hc; exact h _ _ hr
    · rename_i y
      cases hr : W.reCompile (.bytes y) with
      | ok u => rw [hr] at hc; cases hc
      | error c => rw [hr] at hc; cases hc; exact h _ _ hr
    · cases hc; exact Or.inr rfl
  all_goals trivial

theorem DictData.both_within {v x : Val} {kvs : List (Val × Val)} {p : Val × Val} (hd : DictData C x kvs) (hp : p ∈ kvs) (h : Within v x) :
    Within v p.1 ∧ Within v p.2 := by
  rcases hd with rfl | ⟨fs, rfl, _, rfl⟩
  · exact ⟨.elem h rfl (List.mem_map.2 ⟨_, hp, rfl⟩), .value h (Or.inl ⟨_, _, rfl, hp⟩)⟩
  · obtain ⟨q, hq, rfl⟩ := List.mem_map.1 hp
    exact ⟨.name h hq, .value h (Or.inr ⟨_, _, rfl, hq⟩)⟩

theorem Exposes.within {F : String → Ty → Prop} {v x : Val} {t u : Ty} (h : Exposes W C F v t x u) : Within v x := by
  induction h with
  | self => exact .self
  | member _ _ ih => exact ih
  | newtype _ ih => exact ih
  | fref _ _ ih => exact ih
  | key _ h1 h2 ih => exact (h1.both_within h2 ih).1
  | value _ h1 h2 ih => exact (h1.both_within h2 ih).2
  | field _ h1 h2 _ _ ih => exact (h1.both_within h2 ih).2

theorem Exposes.meets {s : LState} {v x : Val} {t u : Ty} (h : Exposes W C (Denotes W C s t) v t x u) : Meets W C s t u := by
  induction h with
  | self => exact .self
  | member _ hu ih => exact .union ih hu
  | newtype _ ih => exact .newtype ih
  | fref _ h _ => exact h.1
  | key _ _ _ ih => exact .dictKey ih
  | value _ _ _ ih => exact .dictVal ih
  | field _ _ _ h3 h4 ih => exact .field ih h3 h4

theorem Culprit.suits (hd : C.Default) {s : LState} {t : Ty} {v : Val}
    (hst : ∀ x u, Exposes W C (Denotes W C s t) v t x u → Suits W C (Known W s) x u)
    {x : Val} {u : Ty} (h : Culprit W C (fun n u => Meets W C s t u ∧ Known W s n u) x u) (hw : Exposes W C (Denotes W C s t) v t x u) : False := by
  induction h with
  | tuple h => exact hst _ _ hw h
  | tag h => exact hst _ _ hw h
  | keyHash h1 h2 h3 =>
    rcases hst _ _ hw with h | h
    · exact h2 (h _ h1)
    · exact h (h3.mono (fun _ _ h => h.2))
  | extraKey h1 h2 h3 h4 => exact (hst _ _ hw).2.2 h1 _ _ h2 h3 h4
  | constructor h1 h2 => exact (hst _ _ hw).1 _ _ h1 h2
  | converter h1 h2 h3 h4 h5 => exact (hst _ _ hw).2.1 _ h2 _ h3 h4
  | date h1 h2 => exact hst _ _ hw _ h1 h2
  | timedelta h1 h2 =>
    have := hst _ _ hw _ h1
    rw [h2] at this; cases this
  | pattern h1 h2 h3 =>
    rcases hst _ _ hw _ h1 with h | h
    · exact h3 h
    · rw [h] at h2; cases h2
  | bare => exact hst _ _ hw
  | user h => exact absurd (pick_installed h) (not_installed hd _)
  | asked h => exact absurd (pick_installed h) (not_installed hd _)
  | member h _ ih => exact ih (.member hw h)
  | newtype _ ih => exact ih (.newtype hw)
  | fref h _ ih => exact ih (.fref hw h)
  | key h1 h2 _ ih => exact ih (.key hw h1 h2)
  | value h1 h2 _ ih => exact ih (.value hw h1 h2)
  | field h1 h2 h3 h4 _ ih => exact ih (.field hw h1 h2 h3 h4)

/-- **C05** for data and types that suit each other, part by part: every failure is a TypedloadException. -/
theorem C05_suits (hd : C.Default) (hl : W.Lawful) {s s' : LState} (hs : Reachable W C s) {v : Val} {t : Ty}
    (hst : ∀ x u, Exposes W C (Denotes W C s t) v t x u → Suits W C (Known W s) x u) {e : Exc} (h : Raises W C s v t e s') : e.isTL = true :=
  (raises_crash hd.mixed hd.calm hl hs h).resolve_right (fun hc => hc.suits hd hst .self)

/-- With `failonextra`, the dictionaries in the data have strings for keys. -/
def StringKeys (C : Config) (v : Val) : Prop := C.failonextra = true → ∀ x kvs p, Within v x → DictData C x kvs → p ∈ kvs → strKey p.1 ≠ none

/-- **C05** for sturdy types, and data in which, if `failonextra` is set, all keys are strings: every failure is a TypedloadException. -/
theorem C05_sturdy_keys (hd : C.Default) (hl : W.Lawful) {s s' : LState} (hs : Reachable W C s) {v : Val} {t : Ty} (hk : StringKeys C v)
    (hst : ∀ u, Meets W C s t u → Sturdy W C (Known W s) u) {e : Exc} (h : Raises W C s v t e s') : e.isTL = true :=
  C05_suits hd hl hs (fun _ u hx => (hst u hx.meets).suits (fun hf _ _ hd hp => hk hf _ _ _ hx.within hd hp)) h

theorem Json.within {v x : Val} (hj : Json v) (h : Within v x) : Json x := by
  induction h with
  | self => exact hj
  | elem _ hi hx ih =>
    cases ih with
    | str s =>
      cases hi
      obtain ⟨c, _, rfl⟩ := List.mem_map.1 hx
      exact .str _
    | array h => cases hi; exact h _ hx
    | object h1 h2 h3 =>
      cases hi
      obtain ⟨p, hp, rfl⟩ := List.mem_map.1 hx
      obtain ⟨n, hn⟩ := h1 p hp
      rw [hn]; exact .str _
    | _ => cases hi
  | value _ hv ih =>
    rcases hv with ⟨kvs, k, rfl, hp⟩ | ⟨kvs, k, rfl, hp⟩
    · cases ih with
      | object h1 h2 h3 => exact h3 _ hp
    · cases ih
  | name _ _ ih => cases ih

/-- What `json.loads` returns has strings for keys. -/
theorem Json.strKeys {x : Val} (hj : Json x) {kvs : List (Val × Val)} {p : Val × Val} (hd : DictData C x kvs) (hp : p ∈ kvs) : strKey p.1 ≠ none := by
  rcases hd with rfl | ⟨fs, rfl, _, _⟩
  · cases hj with
    | object h1 h2 h3 =>
      obtain ⟨n, hn⟩ := h1 p hp
      rw [hn]; simp [strKey]
  · cases hj

/-- **C05** for what `json.loads` returns, with any value of `failonextra`: every failure is a TypedloadException, if each type met is sturdy, or suits
the parts of the data that it is used for. -/
theorem C05_json (hd : C.Default) (hl : W.Lawful) {s s' : LState} (hs : Reachable W C s) {v : Val} (hj : Json v) {t : Ty}
    (hst : ∀ u, Meets W C s t u → Sturdy W C (Known W s) u ∨ ∀ x, Exposes W C (Denotes W C s t) v t x u → Suits W C (Known W s) x u)
    {e : Exc} (h : Raises W C s v t e s') : e.isTL = true :=
  C05_suits hd hl hs (fun x u hx => (hst u hx.meets).elim
    (fun h => h.suits (fun _ _ _ hd hp => (hj.within hx.within).strKeys hd hp)) (fun h => h x hx)) h

theorem Json.stringKeys {v : Val} (hj : Json v) : StringKeys C v := fun _ _ _ _ hx hd hp => (hj.within hx).strKeys hd hp

/-- **C10** for unions and data that suit each other, part by part, where loading ends: the union accepts whatever some member accepts. -/
theorem C10_suits {s : LState} (hd : C.Default) (hl : W.Lawful) (hdbg : C.uniondebugconflict = false)
    (hs : Reachable W C s) {v : Val} {ts : List Ty} {p : Ty} (hp : p ∈ ts)
    (hst : ∀ x u, Exposes W C (Denotes W C s (.union ts)) v (.union ts) x u → Suits W C (Known W s) x u)
    (hloop : ∀ w, Within v w → ∀ u, Meets W C s (.union ts) u → ¬ Endless (Retry W C s (.union ts) w) u)
    (hacc : ∀ s1, Ext W C s s1 → ∃ r s2, Loads W C s1 v p r s2) : ∃ r s', Loads W C s v (.union ts) r s' := by
  rcases C45_terminates hs v (.union ts) (fun i hi => absurd hi (not_installed hd i)) hloop with h | ⟨e, s', h⟩
  · exact h
  · exfalso
    have htl := C05_suits hd hl hs hst h
    obtain ⟨e', rfl, hx, ⟨hn, _⟩ | ⟨order, c, r, es, ho, hl, hc⟩⟩ := union_raises hd hs.coh h
    · rw [loadExc, if_neg (by simp [hn])] at htl; exact Bool.noConfusion htl
    · obtain ⟨pre, post, os, rfl, hz, h1, h2, h3, h4, h5⟩ := hl
      simp only [Nat.zero_add] at h1
      rcases h5 hdbg with ⟨rfl, h0⟩ | ⟨x, hx', _⟩
      · have hm : p ∈ pre ++ [] := ho.perm.mem_iff.2 hp
        obtain ⟨s1, s2, e, he, hr, _⟩ := (zip_oks_nil hz h0).1 p (by simpa using hm)
        obtain ⟨r', s3, hl'⟩ := hacc s1 he
        exact hl'.not_raises hr
      · rw [hx'] at h1; simp at h1
        rcases hc with ⟨h, _⟩ | ⟨h, _⟩ <;> omega

/-- The parts of `Tuple[int, int]` and a list that matter: the list itself only. -/
theorem Sample.exposes_tuple {F : String → Ty → Prop} {v x : Val} {us : List Ty} {u : Ty} (h : Exposes W C F v (.tuple us) x u) : x = v ∧ u = .tuple us := by
  induction h with
  | self => exact ⟨rfl, rfl⟩
  | member _ _ ih => cases ih.2
  | newtype _ ih => cases ih.2
  | fref _ _ ih => cases ih.2
  | key _ _ _ ih => cases ih.2
  | value _ _ _ ih => cases ih.2
  | field _ _ _ _ _ ih => cases ih.2

/-- The hypotheses of `C05_suits`: a list for `Tuple[int, int]`, which fails. -/
example : (∀ x u, Exposes Sample.W Sample.C (Denotes Sample.W Sample.C (fresh []) (.tuple [.prim .int, .prim .int])) (.list [.str "a", .int 1])
      (.tuple [.prim .int, .prim .int]) x u → Suits Sample.W Sample.C (Known Sample.W (fresh [])) x u) ∧
    ∃ e s', Raises Sample.W Sample.C (fresh []) (.list [.str "a", .int 1]) (.tuple [.prim .int, .prim .int]) e s' := by
  refine ⟨fun x u h => ?_, _, _, 3, rfl⟩
  obtain ⟨rfl, rfl⟩ := Sample.exposes_tuple h
  exact fun h => by cases h

/-- A loader with `failonextra`. -/
def Sample.picky : Config := { Sample.C with failonextra := true }

/-- The hypotheses of `C05_json`: `class P` with `failonextra`, given an unknown key. -/
example : Json (.dict [(.str "x", .int 1), (.str "zed", .str "b"), (.str "w", .list [.none])]) ∧
    (∀ u, Meets Sample.W Sample.picky (fresh []) (.obj 0) u → Sturdy Sample.W Sample.picky (Known Sample.W (fresh [])) u) ∧
    ∃ e s', Raises Sample.W Sample.picky (fresh []) (.dict [(.str "x", .int 1), (.str "zed", .str "b"), (.str "w", .list [.none])]) (.obj 0) e s' := by
  refine ⟨?_, fun u hu => ?_, _, _, 5, rfl⟩
  · refine .object ?_ (by decide) ?_
    · intro p hp; simp at hp; rcases hp with rfl | rfl | rfl <;> exact ⟨_, rfl⟩
    · intro p hp; simp at hp; rcases hp with rfl | rfl | rfl
      · exact .int _
      · exact .str _
      · exact .array (fun x hx => by simp at hx; subst hx; exact .null)
  · have key : u = .obj 0 ∨ u = .prim .int ∨ u = .prim .str := by
      induction hu with
      | self => simp
      | known h => obtain ⟨fr, h1, h2⟩ := h; cases h1; cases h2
      | coll _ ih => simp at ih
      | tuple _ _ ih => simp at ih
      | dictKey _ ih => simp at ih
      | dictVal _ ih => simp at ih
      | union _ _ ih => simp at ih
      | newtype _ ih => simp at ih
      | enum _ _ ih => simp at ih
      | custom hi _ _ => exact absurd hi (not_installed (C := Sample.picky) rfl _)
      | field _ hf ht ih =>
        simp at ih; subst ih
        have hf' : _ ∈ Sample.clsP.fields := hf
        simp only [Sample.clsP, List.mem_cons, List.not_mem_nil, or_false] at hf'
        cases ht with
        | declared => rcases hf' with rfl | rfl | rfl <;> simp
        | converter _ h => cases h
        | untyped _ h => cases h
        | manyHints _ h => cases h
    rcases key with rfl | rfl | rfl
    · refine ⟨fun fs x h => (by cases h), fun f hf cv hc => ?_⟩
      have hf' : f ∈ Sample.clsP.fields := hf
      simp only [Sample.clsP, List.mem_cons, List.not_mem_nil, or_false] at hf'
      rcases hf' with rfl | rfl | rfl <;> cases hc
    · trivial
    · trivial

/-- `Union[Tuple[int, int], Any]` accepts `["a", 1]`, which only the last member accepts. -/
example : ∃ r s', Loads Sample.W Sample.C (fresh []) (.list [.str "a", .int 1]) (.union [.tuple [.prim .int, .prim .int], .any]) r s' := by
  have hm : ∀ u, Meets Sample.W Sample.C (fresh []) (.union [.tuple [.prim .int, .prim .int], .any]) u →
      u = .union [.tuple [.prim .int, .prim .int], .any] ∨ u = .tuple [.prim .int, .prim .int] ∨ u = .any ∨ u = .prim .int := by
    intro u h
    induction h with
    | self => simp
    | known hb => obtain ⟨fr, h1, h2⟩ := hb; cases h1; cases h2
    | coll _ ih => simp at ih
    | tuple _ hu ih => simp at ih; subst ih; simp at hu; subst hu; simp
    | dictKey _ ih => simp at ih
    | dictVal _ ih => simp at ih
    | union _ hu ih => simp at ih; subst ih; simp at hu; rcases hu with rfl | rfl <;> simp
    | newtype _ ih => simp at ih
    | enum _ _ ih => simp at ih
    | custom hi _ _ => exact absurd hi (not_installed (C := Sample.C) rfl _)
    | field _ hf ht ih => simp at ih
  refine C10_suits (C := Sample.C) rfl Sample.lawful rfl (Reachable.new (some []) []) (p := .any) (by simp) ?_ ?_ ?_
  · intro x u h
    have hx : x = .list [.str "a", .int 1] := by
      induction h with
      | self => rfl
      | member _ _ ih => exact ih
      | newtype _ ih => exact ih
      | fref _ _ ih => exact ih
      | key h0 _ _ _ => exact absurd (hm _ h0.meets) (by simp)
      | value h0 _ _ _ => exact absurd (hm _ h0.meets) (by simp)
      | field h0 _ _ _ _ _ => exact absurd (hm _ h0.meets) (by simp)
    subst hx
    rcases hm u h.meets with rfl | rfl | rfl | rfl
    · rintro ⟨kvs, k, y, h, _⟩; cases h
    · exact fun h => by cases h
    · trivial
    · trivial
  · intro w _ u hu
    apply not_endless_of_acc
    apply Flat.acc (Config.Default.standalone (C := Sample.C) rfl)
    have hany : Flat .any := .other (fun _ _ h => (by cases h)) (fun _ h => (by cases h)) (fun _ h => (by cases h)) (fun _ _ h => (by cases h))
        (fun _ h => (by cases h)) (fun _ h => (by cases h))
    have hint : Flat (.prim .int) := .other (fun _ _ h => (by cases h)) (fun _ h => (by cases h)) (fun _ h => (by cases h)) (fun _ _ h => (by cases h))
        (fun _ h => (by cases h)) (fun _ h => (by cases h))
    have htup : Flat (.tuple [.prim .int, .prim .int]) := .tuple (fun u hu => by simp at hu; subst hu; exact hint)
    rcases hm u hu with rfl | rfl | rfl | rfl
    · refine .union (fun u hu => ?_)
      simp at hu
      rcases hu with rfl | rfl
      · exact htup
      · exact hany
    · exact htup
    · exact hany
    · exact hint
  · intro s1 he
    obtain ⟨s', h⟩ := (leaf_loads (W := Sample.W) (C := Sample.C) (v := .list [.str "a", .int 1]) ((Reachable.new (some []) []).coh.ext he)
      (pick_any (C := Sample.C) rfl) (x := .ok (.list [.str "a", .int 1])) (fun _ _ => rfl) (.list [.str "a", .int 1])).2 rfl
    exact ⟨_, s', h⟩

end TL
