import Verif.Props.Json
import Verif.Props.Soundness
/-!
# C49: loading plain data twice is the same as once
-/

namespace TL

variable {W : World} {C : Config} {Γ : Env}

/-! ## Specification -/

/-- `u` is a part of `t`: an element, key, value or member type, what a NewType is based on or a forward reference means. -/
inductive Part (Γ : Env) (t : Ty) : Ty → Prop
  | self : Part Γ t t
  | coll {k u} : Part Γ t (.coll k u) → Part Γ t u
  | tuple {us u} : Part Γ t (.tuple us) → u ∈ us → Part Γ t u
  | dictKey {k v} : Part Γ t (.dict k v) → Part Γ t k
  | dictVal {k v} : Part Γ t (.dict k v) → Part Γ t v
  | union {us u} : Part Γ t (.union us) → u ∈ us → Part Γ t u
  | newtype {n u} : Part Γ t (.newtype n u) → Part Γ t u
  | fref {n u} (f : String → Option Ty) : Part Γ t (.fref n) → Γ = some f → f n = some u → Part Γ t u

/-- List, Set, FrozenSet and Tuple types. -/
def Ty.IsIter (t : Ty) : Prop := (∃ k u, t = .coll k u) ∨ ∃ us, t = .tuple us
/-- Dict types. -/
def Ty.IsDict (t : Ty) : Prop := ∃ k u, t = .dict k u

/-- Types of plain data (outermost constructor): basic types, containers, Literal, Enum, Any, NewType, forward references, and unions of
basic types with at most one other member, or one iterable and one dictionary type. -/
def PlainData (C : Config) : Ty → Prop
  | .prim _ | .any | .lit _ | .enum _ | .coll _ _ | .tuple _ | .dict _ _ | .fref _ | .newtype _ _ => True
  | .union ts => ∀ a ∈ ts, ∀ b ∈ ts, C.isBasic a = false → C.isBasic b = false → a ≠ b → (a.IsIter ∧ b.IsDict) ∨ (a.IsDict ∧ b.IsIter)
  | _ => False

/-! ## Proof -/

/-- If the computation returns, `Q` holds of the result. -/
def Ens {α : Type} (m : R α) (Q : α → Prop) : Prop := ∀ r, m () = .ok r () → Q r

section
variable {α β : Type}
theorem Ens.pure {a : α} {Q : α → Prop} (h : Q a) : Ens (Pure.pure a : R α) Q := fun _ hr => by cases hr; exact h
theorem Ens.throw {e : Exc} {Q : α → Prop} : Ens (M.throw e : R α) Q := fun _ hr => by cases hr
theorem Ens.bind {m : R α} {f : α → R β} {P : α → Prop} {Q : β → Prop} (hm : Ens m P) (hf : ∀ a, P a → Ens (f a) Q) : Ens (m >>= f) Q := by
  intro r hr
  simp only [M.bind_apply] at hr
  cases hx : m () with
  | ok a u => rw [hx] at hr; exact hf a (hm a hx) r hr
  | err e u => rw [hx] at hr; cases hr
  | div => rw [hx] at hr; cases hr
theorem Ens.rescue {m : R α} {f : Exc → R α} {Q : α → Prop} (hm : Ens m Q) (hf : ∀ e, Ens (f e) Q) : Ens (M.rescue m f) Q := by
  intro r hr
  simp only [M.catch_apply] at hr
  cases hx : m () with
  | ok a u => rw [hx] at hr; cases hr; exact hm _ hx
  | err e u => rw [hx] at hr; exact hf e r hr
  | div => rw [hx] at hr; cases hr
theorem Ens.handle {m : R α} {f : α → R β} {g : Exc → R β} {P : α → Prop} {Q : β → Prop} (hm : Ens m P) (hf : ∀ a, P a → Ens (f a) Q)
    (hg : ∀ e, Ens (g e) Q) : Ens (M.handle m f g) Q := by
  intro r hr
  simp only [M.handle_apply] at hr
  cases hx : m () with
  | ok a u => rw [hx] at hr; exact hf a (hm a hx) r hr
  | err e u => rw [hx] at hr; exact hg e r hr
  | div => rw [hx] at hr; cases hr
theorem Ens.any (m : R α) : Ens m (fun _ => True) := fun _ _ => trivial
theorem Ens.ite {c : Prop} [Decidable c] {m m' : R α} {Q : α → Prop} (h1 : c → Ens m Q) (h2 : ¬ c → Ens m' Q) : Ens (if c then m else m') Q := by
  by_cases h : c
  · rw [if_pos h]; exact h1 h
  · rw [if_neg h]; exact h2 h
theorem Ens.resolve {t : Ty} {e : Exc} : Ens (Ref.resolve W C t e) (fun h => pick W C t = .ok h) := by
  intro h hr
  unfold Ref.resolve at hr
  cases hp : pick W C t with
  | ok h' => rw [hp] at hr; cases hr; rfl
  | error c => rw [hp] at hr; cases hr
end

/-- What loads into `t` as itself. -/
inductive Settled (W : World) (C : Config) (Γ : Env) : Ty → Val → Prop
  | prim {p v} : typeOf v = .prim p → p ∈ C.basictypes ∨ p = .none → Settled W C Γ (.prim p) v
  | any {v} : Settled W C Γ .any v
  | lit {vs v} : pyIn v vs = true → Settled W C Γ (.lit vs) v
  | enum {e n} : enumCall W e (.enumv e n) = some (.enumv e n) → Settled W C Γ (.enum e) (.enumv e n)
  | coll {k t xs h} : pick W C t = .ok h → (∀ x ∈ xs, Settled W C Γ t x) → (k.isSet = true → SetLike W xs) → Settled W C Γ (.coll k t) (.seq k xs)
  | collBasic {k p xs} : p ∈ C.basictypes → (∀ x ∈ xs, isInst p x = true) → (k.isSet = true → SetLike W xs) → Settled W C Γ (.coll k (.prim p)) (.seq k xs)
  | tuple {ts xs} : xs.length = ts.length → (∀ (i : Nat) x t, xs[i]? = some x → ts[i]? = some t → Settled W C Γ t x) →
      Settled W C Γ (.tuple ts) (.tuple xs)
  | dict {kt vt kvs hk hv} : pick W C kt = .ok hk → pick W C vt = .ok hv → (∀ p ∈ kvs, Settled W C Γ kt p.1) → (∀ p ∈ kvs, Settled W C Γ vt p.2) →
      SetLike W (kvs.map (·.1)) → Settled W C Γ (.dict kt vt) (.dict kvs)
  | unionBasic {ts v} : C.isBasic (typeOf v) = true → typeOf v ∈ ts → Settled W C Γ (.union ts) v
  | union {ts u v} : u ∈ ts → C.isBasic u = false → Settled W C Γ u v → Settled W C Γ (.union ts) v
  | fref {n t v} (f : String → Option Ty) : Γ = some f → f n = some t → Settled W C Γ t v → Settled W C Γ (.fref n) v
  | newtype {n t v} : Settled W C Γ t v → Settled W C Γ (.newtype n t) v

theorem Settled.member {e : Nat} {v m : Val} (h : enumCall W e v = some m) : Settled W C Γ (.enum e) m := by
  have : m ∈ (W.enm e).members.map (fun m => Val.enumv e m.1) := by
    obtain ⟨p, hp, rfl⟩ := enumCall_member h
    exact List.mem_map.2 ⟨p, hp, rfl⟩
  have h2 : enumCall W e m = some m := by unfold enumCall; rw [if_pos this]
  obtain ⟨p, _, rfl⟩ := List.mem_map.1 this
  exact .enum h2

theorem basic_of_pick (hd : C.Default) {p : Prim} {h : Handler} (hp : pick W C (.prim p) = .ok h) : p ∈ C.basictypes ∨ p = .none := by
  by_cases hn : p = .none
  · exact Or.inr hn
  · refine Or.inl ?_
    by_cases hb : p ∈ C.basictypes
    · exact hb
    · rw [pick_prim_none hd hb hn] at hp; cases hp

section first
variable (hd : C.Default) (hl : W.Lawful) {G : Ty → Prop} {P : Val → Ty → Prop} {rec : Ref.Rec}
include hd hl

/-- What the first load establishes. -/
structure Walk (W : World) (C : Config) (Γ : Env) (G : Ty → Prop) (P : Val → Ty → Prop) : Prop where
  plain : ∀ u, G u → PlainData C u
  coll : ∀ k u, G (.coll k u) → G u
  tuple : ∀ us, G (.tuple us) → ∀ u ∈ us, G u
  dict : ∀ k u, G (.dict k u) → G k ∧ G u
  union : ∀ us, G (.union us) → ∀ u ∈ us, G u
  newtype : ∀ n u, G (.newtype n u) → G u
  fref : ∀ f n u, Γ = some f → G (.fref n) → f n = some u → G u
  pcoll : ∀ w xs k u, P w (.coll k u) → w.isDict = false → pyIter w = some xs → ∀ x ∈ xs, P x u
  ptuple : ∀ w xs us, P w (.tuple us) → w.isDict = false → pyIter w = some xs → ∀ x u, (x, u) ∈ xs.zip us → P x u
  pdict : ∀ w kvs k u, P w (.dict k u) → DictData C w kvs → ∀ p ∈ kvs, P p.1 k ∧ P p.2 u
  punion : ∀ w us, P w (.union us) → ∀ u ∈ us, P w u
  pnewtype : ∀ w n u, P w (.newtype n u) → P w u
  pfref : ∀ w f n u, Γ = some f → P w (.fref n) → f n = some u → P w u
  exact : ∀ d k w kvs, P d (.dict k w) → DictData C d kvs → ∀ p ∈ kvs,
    (BasicInstance C k p.1 → typeOf p.1 = k) ∧ (BasicInstance C w p.2 → typeOf p.2 = w)

variable (hg : Walk W C Γ G P) (hrec : ∀ h v t, G t → P v t → pick W C t = .ok h → Ens (rec h v t) (Settled W C Γ t))
include hg hrec

omit hl hg in
theorem Ens.loadWith {v : Val} {t : Ty} (hG : G t) (hP : P v t) (a : Option Annotation) :
    Ens (Ref.loadWith W C rec v t a) (Settled W C Γ t) := by
  unfold Ref.loadWith
  refine Ens.bind Ens.resolve (fun h hp => Ens.rescue (hrec h v t hG hP hp) (fun e => ?_))
  exact Ens.ite (fun _ => Ens.throw) (fun _ => Ens.throw)

omit hl hg hd in
theorem Ens.iterElem {h : Handler} {et : Ty} {x : Val} (hG : G et) (hP : P x et) (hp : pick W C et = .ok h) :
    Ens (Ref.iterElem C rec h et x) (fun y => Settled W C Γ et y ∨ ∃ p, et = .prim p ∧ p ∈ C.basictypes ∧ isInst p y = true) := by
  have h1 : Ens (rec h x et) (fun y => Settled W C Γ et y ∨ ∃ p, et = .prim p ∧ p ∈ C.basictypes ∧ isInst p y = true) :=
    fun r hr => Or.inl (hrec h x et hG hP hp r hr)
  unfold Ref.iterElem
  split
  · refine Ens.ite (fun hb => Ens.ite (fun hi => Ens.pure (Or.inr ⟨_, rfl, by simpa [Config.isBasic] using hb, hi⟩)) (fun _ => h1)) (fun _ => h1)
  · rename_i ts
    refine Ens.ite (fun hb => Ens.ite (fun hi => Ens.pure (Or.inl (.unionBasic ?_ hi))) (fun _ => h1)) (fun _ => h1)
    exact List.all_eq_true.1 hb _ hi
  · exact h1

omit hl hg hd in
theorem Ens.iterElems {h : Handler} {k : SeqKind} {et : Ty} {v : Val} {t : Ty} (hG : G et) (hp : pick W C et = .ok h) (xs : List Val) :
    (∀ x ∈ xs, P x et) → ∀ (i : Nat) (acc : List Val),
    (∀ y ∈ acc, Settled W C Γ et y ∨ ∃ p, et = .prim p ∧ p ∈ C.basictypes ∧ isInst p y = true) → (k.isSet = true → SetLike W acc) →
    Ens (Ref.iterElems W C rec h k et v t xs i acc) (fun r =>
      (∀ y ∈ r, Settled W C Γ et y ∨ ∃ p, et = .prim p ∧ p ∈ C.basictypes ∧ isInst p y = true) ∧ (k.isSet = true → SetLike W r)) := by
  induction xs with
  | nil => intro _ i acc h1 h2; exact Ens.pure ⟨h1, h2⟩
  | cons x xs ih =>
    intro hx i acc h1 h2
    unfold Ref.iterElems
    refine Ens.handle (Ens.iterElem hrec hG (hx x (by simp)) hp) (fun y hy => ?_) (fun e => ?_)
    · cases hc : collAdd W k acc y with
      | error c => exact Ens.throw
      | ok acc' =>
        dsimp only
        unfold collAdd at hc
        by_cases hk : k.isSet = true
        · rw [if_pos hk] at hc
          by_cases hh : W.hash y = true
          · rw [if_pos hh] at hc
            cases hc
            refine ih (fun z hz => hx z (by simp [hz])) _ _ (fun z hz => ?_) (fun _ => setLike_setAdd (h2 hk) hh)
            unfold setAdd at hz
            split at hz
            · exact h1 z hz
            · rcases List.mem_append.1 hz with hz | hz
              · exact h1 z hz
              · simp at hz; subst hz; exact hy
          · rw [if_neg hh] at hc; cases hc
        · rw [if_neg hk] at hc
          cases hc
          refine ih (fun z hz => hx z (by simp [hz])) _ _ (fun z hz => ?_) (fun h => absurd h hk)
          rcases List.mem_append.1 hz with hz | hz
          · exact h1 z hz
          · simp at hz; subst hz; exact hy
    · exact Ens.ite (fun _ => Ens.pure ⟨h1, h2⟩) (fun _ => Ens.throw)

omit hl hd in
theorem Ens.iterload {k : SeqKind} {et : Ty} {v : Val} (hG : G (.coll k et)) (hP : P v (.coll k et)) :
    Ens (Ref.iterload W C rec k v (.coll k et)) (Settled W C Γ (.coll k et)) := by
  unfold Ref.iterload
  refine Ens.ite (fun _ => Ens.throw) (fun hnd => Ens.bind Ens.resolve (fun h hp => ?_))
  cases hi : pyIter v with
  | none => exact Ens.throw
  | some xs =>
    refine Ens.bind (Ens.iterElems hrec (hg.coll _ _ hG) hp xs (hg.pcoll _ _ _ _ hP (by simpa using hnd) hi) 0 [] (by simp) (fun _ => by simp [SetLike])) (fun ys hy => ?_)
    refine Ens.pure ?_
    by_cases hb : ∃ p, et = .prim p ∧ p ∈ C.basictypes
    · obtain ⟨p, rfl, hb⟩ := hb
      refine .collBasic hb (fun x hx => ?_) hy.2
      rcases hy.1 x hx with h1 | ⟨q, hq, _, h2⟩
      · cases h1 with
        | prim ht _ => exact typeOf_isInst ht
      · cases hq; exact h2
    · refine .coll hp (fun x hx => ?_) hy.2
      rcases hy.1 x hx with h1 | ⟨q, hq, h2, _⟩
      · exact h1
      · exact absurd ⟨q, hq, h2⟩ hb

omit hl hg in
theorem Ens.tupElems {v : Val} {t : Ty} (xs : List Val) : ∀ (us : List Ty) (i : Nat), us.length ≤ xs.length → (∀ u ∈ us, G u) → (∀ x u, (x, u) ∈ xs.zip us → P x u) →
    Ens (Ref.tupElems W C rec v t xs us i) (fun ys => ys.length = us.length ∧
      ∀ (i : Nat) y u, ys[i]? = some y → us[i]? = some u → Settled W C Γ u y) := by
  induction xs with
  | nil =>
    intro us i hl hG hP
    cases us with
    | nil => simp only [Ref.tupElems]; exact Ens.pure ⟨rfl, by simp⟩
    | cons => simp at hl
  | cons x xs ih =>
    intro us i hl hG hP
    cases us with
    | nil => simp only [Ref.tupElems]; exact Ens.pure ⟨rfl, by simp⟩
    | cons u us =>
      simp only [Ref.tupElems]
      refine Ens.bind (P := Settled W C Γ u) (Ens.rescue ?_ (fun e => Ens.throw)) (fun y hy => ?_)
      · cases hp : pick W C u with
        | error c => exact Ens.throw
        | ok h =>
          refine Ens.ite (fun hc => Ens.pure ?_) (fun _ => hrec h x u (hG u (by simp)) (hP x u (by simp)) hp)
          simp only [Bool.and_eq_true, beq_iff_eq] at hc
          obtain ⟨hb, ht⟩ := hc
          cases u with
          | prim p => exact .prim ht (by simpa [Config.isBasic] using Or.inl hb)
          | _ => exact Bool.noConfusion hb
      · refine Ens.bind (ih us _ (by simpa using hl) (fun w hw => hG w (by simp [hw])) (fun x' u' hx => hP x' u' (by simp [hx]))) (fun ys hys => ?_)
        refine Ens.pure ⟨by simp [hys.1], fun j z w hz hw => ?_⟩
        cases j with
        | zero => simp at hz hw; subst hz; subst hw; exact hy
        | succ j => exact hys.2 j z w (by simpa using hz) (by simpa using hw)

omit hl in
theorem Ens.part {x : Val} {t : Ty} {a : Annotation} (hG : G t) (hP : P x t) (hb : BasicInstance C t x → typeOf x = t) :
    Ens (Ref.part W C rec x t a) (Settled W C Γ t) := by
  unfold Ref.part
  refine Ens.ite (fun h => Ens.pure ?_) (fun _ => Ens.loadWith hd hrec hG hP _)
  have h1 := isInstTy_basic h
  have h2 := hb h1
  obtain ⟨p, rfl, hm, _⟩ := h1
  exact .prim h2 (Or.inl hm)

omit hl in
theorem Ens.pairs {kt vt : Ty} (hGk : G kt) (hGv : G vt) (kvs : List (Val × Val)) : ∀ acc,
    (∀ p ∈ kvs, P p.1 kt ∧ P p.2 vt ∧ (BasicInstance C kt p.1 → typeOf p.1 = kt) ∧ (BasicInstance C vt p.2 → typeOf p.2 = vt)) →
    DictAcc W (Settled W C Γ kt) (Settled W C Γ vt) acc →
    Ens (Ref.pairs W C rec kt vt kvs acc) (DictAcc W (Settled W C Γ kt) (Settled W C Γ vt)) := by
  induction kvs with
  | nil => intro acc _ h; exact Ens.pure h
  | cons p kvs ih =>
    intro acc hp h
    obtain ⟨k, x⟩ := p
    obtain ⟨h1, h2, h3, h4⟩ := hp (k, x) (by simp)
    unfold Ref.pairs
    refine Ens.bind (Ens.part hd hg hrec hGk h1 h3) (fun k' hk => Ens.bind (Ens.part hd hg hrec hGv h2 h4) (fun x' hx => ?_))
    exact Ens.ite (fun hh => ih _ (fun p hp' => hp p (by simp [hp'])) (h.add hk hx hh)) (fun _ => Ens.throw)

omit hd hg hl in
theorem Ens.unionTry {v : Val} {t : Ty} {ts : List Ty} (us : List Ty) (hu : C.uniondebugconflict = false) (hG : ∀ u ∈ us, G u ∧ P v u) : ∀ r0 es,
    Ens (Ref.unionTry W C rec v t us 0 r0 es) (fun o => o.1 = 1 → ∃ u ∈ us, Settled W C Γ u o.2.1) := by
  induction us with
  | nil => intro r0 es; exact Ens.pure (by simp)
  | cons u us ih =>
    intro r0 es
    unfold Ref.unionTry
    refine Ens.handle (P := Settled W C Γ u) (Ens.bind Ens.resolve (fun h hp => hrec h v u (hG u (by simp)).1 (hG u (by simp)).2 hp)) (fun x hx => ?_) (fun e => ?_)
    · rw [hu]
      exact Ens.pure (fun _ => ⟨u, by simp, hx⟩)
    · refine Ens.ite (fun _ => ?_) (fun _ => Ens.throw)
      intro o ho h1
      obtain ⟨w, hw, h2⟩ := ih (fun w hw => hG w (by simp [hw])) _ _ o ho h1
      exact ⟨w, by simp [hw], h2⟩

omit hd hl hg hrec in
theorem Settled.to_union {ts : List Ty} {u : Ty} {v : Val} (hu : u ∈ ts) (h : Settled W C Γ u v) : Settled W C Γ (.union ts) v := by
  by_cases hb : C.isBasic u = true
  · cases h with
    | prim ht _ => exact .unionBasic (by rw [ht]; exact hb) (by rw [ht]; exact hu)
    | _ => exact Bool.noConfusion hb
  · exact .union hu (by simpa using hb) h

omit hd hl hg hrec in
theorem mkDisc_plain {ts : List Ty} (hp : ∀ u ∈ ts, PlainData C u) : mkDisc W [] ts = none := by
  unfold mkDisc
  cases ts with
  | nil => rfl
  | cons u us =>
    have : discriminatorliterals W [] u = [] := by
      have := hp u (by simp)
      cases u <;> first | rfl | exact this.elim
    simp [commonKeys, this]

omit hd hl hg hrec in
theorem unionOrder_plain {ts : List Ty} (hp : ∀ u ∈ ts, PlainData C u) (v : Val) : Ref.unionOrder W C v ts = Pure.pure (sortArgs C ts) := by
  unfold Ref.unionOrder
  rw [mkDisc_plain hp]
  cases v <;> rfl

omit hd hl hg hrec in
theorem mem_sortArgs' {ts : List Ty} {u : Ty} (h : u ∈ sortArgs C ts) : u ∈ ts := by
  unfold sortArgs at h
  simp only [List.mem_append, List.mem_filter] at h
  rcases h with h | h <;> exact h.1

omit hd hl hg in
theorem Ens.enumHints {v : Val} {e : Nat} (us : List Ty) : ∀ es, Ens (Ref.enumHints W C rec v e us es) (Settled W C Γ (.enum e)) := by
  induction us with
  | nil => intro es; exact Ens.throw
  | cons u us ih =>
    intro es
    unfold Ref.enumHints
    refine Ens.rescue (Ens.bind (Ens.any _) (fun x _ => ?_)) (fun ex => ih _)
    cases hx : enumCall W e x with
    | none => exact Ens.throw
    | some m => exact Ens.pure (.member hx)

theorem Ens.step (hu : C.uniondebugconflict = false) {h : Handler} {v : Val} {t : Ty} (hG : G t) (hP : P v t) (hp : pick W C t = .ok h) :
    Ens (Ref.step W C Γ rec h v t) (Settled W C Γ t) := by
  cases t with
  | prim p =>
    by_cases hn : p = .none
    · subst hn
      rw [pick_none hd] at hp; cases hp
      intro r hr
      simp only [Ref.step, ofL, noneload] at hr
      by_cases hv : v = .none
      · rw [if_pos hv] at hr; cases hr; exact .prim rfl (Or.inr rfl)
      · rw [if_neg hv] at hr; cases hr
    · have hb := (basic_of_pick hd hp).resolve_right hn
      rw [pick_basic hd hb hn] at hp; cases hp
      intro r hr
      simp only [Ref.step, ofL, basicload] at hr
      by_cases ht : typeOf v = .prim p
      · simp only [ht, ne_eq, not_true, if_false] at hr
        cases hr; exact .prim ht (Or.inl hb)
      · simp only [ht, ne_eq, not_false_iff, if_true] at hr
        cases hbc : C.basiccast with
        | false => rw [hbc] at hr; cases hr
        | true =>
          rw [hbc] at hr
          cases hc : pyCall W (.prim p) v with
          | ok x => rw [hc] at hr; cases hr; exact .prim (hl.prim _ _ _ hc) (Or.inl hb)
          | error e =>
            rw [hc] at hr
            by_cases h1 : e.isValue = true
            · simp [h1] at hr
            · by_cases h2 : e.isType = true
              · simp [h1, h2] at hr
              · simp [h1, h2] at hr
  | any => exact fun _ _ => .any
  | lit vs =>
    rw [pick_lit hd] at hp; cases hp
    intro r hr
    simp only [Ref.step, ofL, literalload] at hr
    by_cases hv : pyIn v vs = true
    · rw [if_pos hv] at hr; cases hr; exact .lit hv
    · rw [if_neg hv] at hr; cases hr
  | enum e =>
    rw [pick_enum hd] at hp; cases hp
    simp only [Ref.step, Ref.enumload]
    cases hx : enumCall W e v with
    | none => exact Ens.enumHints hrec _ _
    | some m => exact Ens.pure (.member hx)
  | coll k u =>
    rw [pick_coll hd] at hp; cases hp
    cases k <;> exact Ens.iterload hg hrec hG hP
  | tuple us =>
    rw [pick_tuple hd] at hp; cases hp
    simp only [Ref.step, Ref.tupleload]
    refine Ens.ite (fun _ => Ens.throw) (fun hnd => ?_)
    cases hi : pyIter v with
    | none => exact Ens.throw
    | some xs =>
      dsimp only
      refine Ens.ite (fun _ => Ens.throw) (fun _ => Ens.ite (fun _ => Ens.throw) (fun hlen => ?_))
      refine Ens.bind (Ens.tupElems hd hrec xs us 0 (by omega) (hg.tuple _ hG) (hg.ptuple _ _ _ hP (by simpa using hnd) hi)) (fun ys hy => Ens.pure (.tuple hy.1 hy.2))
  | dict k u =>
    rw [pick_dict hd] at hp; cases hp
    simp only [Ref.step, Ref.dictload]
    refine Ens.bind Ens.resolve (fun hk hpk => Ens.bind Ens.resolve (fun hv hpv => Ens.rescue ?_ (fun e => Ens.ite (fun _ => Ens.throw) (fun _ => Ens.throw))))
    cases hi : items (dictequivalence C v) with
    | none => exact Ens.throw
    | some kvs =>
      have hdd := (items_dictequivalence v kvs).1 hi
      refine Ens.bind (Ens.pairs hd hg hrec (hg.dict _ _ hG).1 (hg.dict _ _ hG).2 kvs [] (fun p hp => ?_) .nil) (fun r hr => Ens.pure (.dict hpk hpv hr.keys hr.vals hr.set))
      exact ⟨(hg.pdict _ _ _ _ hP hdd p hp).1, (hg.pdict _ _ _ _ hP hdd p hp).2, hg.exact _ _ _ _ hP hdd p hp⟩
  | union ts =>
    rw [pick_union hd] at hp; cases hp
    simp only [Ref.step, Ref.unionload]
    refine Ens.ite (fun hb => Ens.pure ?_) (fun _ => ?_)
    · simp only [Bool.and_eq_true, List.contains_iff_mem] at hb
      exact .unionBasic hb.1 hb.2
    · rw [unionOrder_plain (fun u hu => hg.plain u (hg.union _ hG u hu))]
      refine Ens.bind (P := fun o => o = sortArgs C ts) (Ens.pure rfl) (fun o ho => ?_)
      subst ho
      refine Ens.bind (Ens.unionTry hrec (ts := ts) _ hu (fun u hu => ⟨hg.union _ hG u (mem_sortArgs' hu), hg.punion _ _ hP u (mem_sortArgs' hu)⟩) _ _) (fun o ho => ?_)
      obtain ⟨c, r, es⟩ := o
      refine Ens.ite (fun h1 => Ens.pure ?_) (fun _ => Ens.ite (fun _ => Ens.throw) (fun _ => Ens.throw))
      obtain ⟨u, hu, hs⟩ := ho h1
      exact hs.to_union (mem_sortArgs' hu)
  | fref n =>
    rw [pick_fref hd] at hp; cases hp
    simp only [Ref.step, Ref.forwardrefload]
    cases hΓ : Γ with
    | none => exact Ens.throw
    | some f =>
      cases hn : f n with
      | none => simp only [hn]; exact Ens.throw
      | some u =>
        simp only [hn]
        rw [← hΓ]
        exact fun r hr => .fref f hΓ hn (Ens.loadWith hd hrec (hg.fref f n u hΓ hG hn) (hg.pfref _ f n u hΓ hP hn) _ r hr)
  | newtype n u =>
    rw [pick_newtype hd] at hp; cases hp
    exact fun r hr => .newtype (Ens.loadWith hd hrec (hg.newtype _ _ hG) (hg.pnewtype _ _ _ hP) _ r hr)
  | _ => exact (hg.plain _ hG).elim

end first

theorem Ens.run (hd : C.Default) (hl : W.Lawful) {G : Ty → Prop} {P : Val → Ty → Prop} (hg : Walk W C Γ G P) (hu : C.uniondebugconflict = false) (n : Nat) :
    ∀ h v t, G t → P v t → pick W C t = .ok h → Ens (Ref.run W C Γ n h v t) (Settled W C Γ t) := by
  induction n with
  | zero => intro h v t _ _ _ r hr; cases hr
  | succ n ih => intro h v t hG hP hp; exact Ens.step hd hl hg ih hu hG hP hp

/-! ### The second load -/

theorem declines_dict_seq (hd : C.Default) {k w : Ty} {a : SeqKind} {xs : List Val} :
    ∃ e, Declines W C Γ (.seq a xs) (.dict k w) e ∧ e.isTL = true := by
  cases hk : pick W C k with
  | error c =>
    have := pick_error hd hk; subst this
    refine ⟨mkExc .tlValue (.noHandlerIn k (.dict k w)) (.seq a xs) k, .of_step (pick_dict hd k w) ⟨0, fun _ _ => ?_⟩, rfl⟩
    simp only [Ref.step, Ref.dictload, Ref.resolve, hk]; rfl
  | ok hk' =>
    cases hv : pick W C w with
    | error c =>
      have := pick_error hd hv; subst this
      refine ⟨mkExc .tlValue (.noHandlerIn w (.dict k w)) (.seq a xs) w, .of_step (pick_dict hd k w) ⟨0, fun _ _ => ?_⟩, rfl⟩
      simp only [Ref.step, Ref.dictload, Ref.resolve, hk, hv]; rfl
    | ok hv' =>
      refine ⟨mkExc .tlAttr .wrapped (.seq a xs) (.dict k w), .of_step (pick_dict hd k w) ⟨0, fun _ _ => ?_⟩, rfl⟩
      simp only [Ref.step, Ref.dictload, Ref.resolve, hk, hv]; rfl

theorem declines_iter_dict (hd : C.Default) {t : Ty} (ht : t.IsIter) (kvs : List (Val × Val)) : ∃ e, Declines W C Γ (.dict kvs) t e ∧ e.isTL = true := by
  rcases ht with ⟨k, u, rfl⟩ | ⟨us, rfl⟩
  · exact ⟨_, .coll_dict hd kvs, rfl⟩
  · exact ⟨_, .of_step (pick_tuple hd us) ⟨0, fun _ _ => rfl⟩, rfl⟩

theorem split_first {α : Type} [DecidableEq α] {l : List α} {a : α} (h : a ∈ l) : ∃ us vs, l = us ++ a :: vs ∧ a ∉ us := by
  induction l with
  | nil => cases h
  | cons b l ih =>
    by_cases hb : a = b
    · subst hb; exact ⟨[], l, rfl, by simp⟩
    · rcases List.mem_cons.1 h with h | h
      · exact absurd h hb
      · obtain ⟨us, vs, h1, h2⟩ := ih h
        exact ⟨b :: us, vs, by rw [h1]; rfl, by simp [hb, h2]⟩

theorem Settled.yields (hd : C.Default) (hu : C.uniondebugconflict = false) {G : Ty → Prop} {P : Val → Ty → Prop} (hg : Walk W C Γ G P) {t : Ty} {r : Val}
    (h : Settled W C Γ t r) : G t → Yields W C Γ r t r := by
  induction h with
  | prim ht hb => intro _; exact .basic hd hb ht
  | any => intro _; exact .any hd _
  | lit h => intro _; exact .lit hd h
  | enum h => intro _; exact .enum hd h
  | @coll k t xs h hp _ hset ih =>
    intro hG
    refine .coll hd rfl rfl hp (zip2_same fun x hx => Ok.iterElem hp (ih x hx (hg.coll _ _ hG)) (fun _ _ _ _ => rfl) (fun _ _ _ _ => rfl)) ?_
    cases hk : k.isSet with
    | false => exact foldlM_collAdd_seq hk xs []
    | true => exact foldlM_collAdd_set hk xs [] (hset hk).1 (hset hk).2
  | @collBasic k p xs hb hi hset =>
    intro hG
    have hp : ∃ h, pick W C (.prim p) = .ok h := by
      by_cases hn : p = .none
      · subst hn; exact ⟨_, pick_none hd⟩
      · exact ⟨_, pick_basic hd hb hn⟩
    obtain ⟨h, hp⟩ := hp
    refine .coll hd rfl rfl hp (zip2_same fun x hx => ?_) ?_
    · simp only [Ref.iterElem, Config.isBasic, List.contains_iff_mem, hb, if_true, hi x hx]
      exact Ok.pure x
    · cases hk : k.isSet with
      | false => exact foldlM_collAdd_seq hk xs []
      | true => exact foldlM_collAdd_set hk xs [] (hset hk).1 (hset hk).2
  | @tuple ts xs hl _ ih =>
    intro hG
    refine .tuple hd (xs := xs) rfl rfl hl.symm ?_
    have : ∀ (xs : List Val) (ts : List Ty), xs.length = ts.length → (∀ (i : Nat) x t, xs[i]? = some x → ts[i]? = some t → Yields W C Γ x t x) →
        Zip2 (fun (p : Val × Ty) y => Yields W C Γ p.1 p.2 y ∧ (typeOf p.1 = p.2 → C.isBasic p.2 = true → y = p.1)) (xs.zip ts) xs := by
      intro xs
      induction xs with
      | nil => intro ts _ _; cases ts <;> exact .nil
      | cons x xs ih =>
        intro ts hl h
        cases ts with
        | nil => simp at hl
        | cons t ts =>
          refine .cons ⟨h 0 x t rfl rfl, fun _ _ => rfl⟩ (ih ts (by simpa using hl) (fun i y u hy hu => h (i + 1) y u (by simpa using hy) (by simpa using hu)))
    exact this xs ts hl (fun i x t hx ht => ih i x t hx ht (hg.tuple _ hG t (List.mem_of_getElem? ht)))
  | @dict kt vt kvs hk hv hpk hpv _ _ hset ihk ihv =>
    intro hG
    have := Yields.dict hd (W := W) (C := C) (Γ := Γ) (v := .dict kvs) (kvs := kvs) (rs := kvs) (Or.inl rfl) hpk hpv (zip2_same fun p hp =>
      ⟨⟨ihk p hp (hg.dict _ _ hG).1, fun _ => rfl⟩, ⟨ihv p hp (hg.dict _ _ hG).2, fun _ => rfl⟩, hset.1 p.1 (List.mem_map.2 ⟨p, hp, rfl⟩)⟩)
    unfold dictOf at this
    rw [foldl_dset_distinct (by simpa [Distinct] using hset.2)] at this
    exact this
  | unionBasic hb hm => intro _; exact .union_exact hd hb hm
  | @union ts u v hm hnb hs ih =>
    intro hG
    by_cases hx : C.isBasic (typeOf v) = true ∧ typeOf v ∈ ts
    · exact .union_exact hd hx.1 hx.2
    · obtain ⟨us, vs, h1, h2⟩ := split_first (a := u) (l := ts.filter (fun t => !C.isBasic t)) (by simp [hm, hnb])
      refine .union_order hd hu hx (us := us) (u := u) (vs := vs ++ ts.filter (fun t => C.isBasic t))
        (by rw [unionOrder_plain (fun u hu => hg.plain u (hg.union _ hG u hu))]; unfold sortArgs; rw [h1]; simp) (ih (hg.union _ hG u hm)) (fun w hw => ?_)
      have hwm : w ∈ ts.filter (fun t => !C.isBasic t) := by rw [h1]; simp [hw]
      simp only [List.mem_filter, Bool.not_eq_true'] at hwm
      rcases hg.plain _ hG w hwm.1 u hm hwm.2 hnb (fun e => h2 (e ▸ hw)) with ⟨ha, k, b, rfl⟩ | ⟨⟨k, b, rfl⟩, ha⟩
      · cases hs with
        | dict => exact declines_iter_dict hd ha _
      · rcases ha with ⟨k', u', rfl⟩ | ⟨us', rfl⟩
        · cases hs <;> exact declines_dict_seq hd
        · cases hs; exact declines_dict_seq hd
  | fref f hΓ hn _ ih => intro hG; exact .fref hd hΓ hn (ih (hg.fref f _ _ hΓ hG hn))
  | newtype _ ih => intro hG; exact .newtype hd (ih (hg.newtype _ _ hG))

/-- Basic values and enum members. -/
def Scalar (x : Val) : Prop := (∃ p, typeOf x = .prim p) ∨ ∃ e n, x = .enumv e n

theorem Scalar.iter {x : Val} {xs : List Val} (h : Scalar x) (hi : pyIter x = some xs) : ∀ y ∈ xs, Scalar y := by
  intro y hy
  rcases h with ⟨p, h⟩ | ⟨e, n, rfl⟩
  · cases x <;> simp [typeOf] at h <;> simp [pyIter] at hi
    · subst hi
      obtain ⟨c, _, rfl⟩ := List.mem_map.1 hy
      exact Or.inl ⟨_, rfl⟩
    · subst hi
      obtain ⟨c, _, rfl⟩ := List.mem_map.1 hy
      exact Or.inl ⟨_, rfl⟩
  · cases hi

/-- What is met when a settled value is loaded again. -/
theorem Settled.reaches {t : Ty} {r : Val} (hp : ∀ u, Part Γ t u → PlainData C u) (hs : Settled W C Γ t r) {x : Val} {u : Ty} (h : Reaches W C Γ r t x u) :
    (Settled W C Γ u x ∧ Part Γ t u) ∨ Scalar x ∨ (∃ p, u = .prim p) ∨ ((∃ a xs, x = .seq a xs) ∧ u.IsDict) ∨ (x.isDict = true ∧ u.IsIter) := by
  have hdd : ∀ {w : Val} {kvs}, DictData C w kvs → Scalar w → False := by
    rintro w kvs (rfl | ⟨fs, rfl, _, _⟩) (⟨p, h⟩ | ⟨e, n, h⟩) <;> first | cases h | simp [typeOf] at h
  have hds : ∀ {a : SeqKind} {xs} {kvs}, DictData C (.seq a xs) kvs → False := by
    rintro a xs kvs (h | ⟨fs, h, _⟩) <;> cases h
  induction h with
  | self => exact Or.inl ⟨hs, .self⟩
  | elem _ hnd hi hx ih =>
    rcases ih with ⟨h1, h2⟩ | h1 | ⟨p, h1⟩ | ⟨_, k, w, h1⟩ | ⟨h1, _⟩
    · cases h1 with
      | coll _ h3 _ => cases hi; exact Or.inl ⟨h3 _ hx, .coll h2⟩
      | collBasic => exact Or.inr (Or.inr (Or.inl ⟨_, rfl⟩))
    · exact Or.inr (Or.inl (h1.iter hi _ hx))
    · cases h1
    · cases h1
    · rw [h1] at hnd; cases hnd
  | @item w xs us x u _ hnd hi hx ih =>
    rcases ih with ⟨h1, h2⟩ | h1 | ⟨p, h1⟩ | ⟨_, k, w, h1⟩ | ⟨h1, _⟩
    · cases h1 with
      | tuple hl h3 =>
        cases hi
        obtain ⟨i, hi, he⟩ := List.getElem_of_mem hx
        rw [List.getElem_zip] at he
        cases he
        simp only [List.length_zip] at hi
        exact Or.inl ⟨h3 i _ _ (by rw [List.getElem?_eq_getElem]) (by rw [List.getElem?_eq_getElem]), .tuple h2 (List.getElem_mem _)⟩
    · exact Or.inr (Or.inl (h1.iter hi _ (List.of_mem_zip hx).1))
    · cases h1
    · cases h1
    · rw [h1] at hnd; cases hnd
  | key _ hd hx ih =>
    rcases ih with ⟨h1, h2⟩ | h1 | ⟨p, h1⟩ | ⟨⟨a, xs, rfl⟩, _⟩ | ⟨_, h1⟩
    · cases h1 with
      | dict _ _ h3 _ _ =>
        rcases hd with h | ⟨fs, h, _⟩ <;> cases h
        exact Or.inl ⟨h3 _ hx, .dictKey h2⟩
    · exact (hdd hd h1).elim
    · cases h1
    · exact (hds hd).elim
    · rcases h1 with ⟨_, _, h1⟩ | ⟨_, h1⟩ <;> cases h1
  | val _ hd hx ih =>
    rcases ih with ⟨h1, h2⟩ | h1 | ⟨p, h1⟩ | ⟨⟨a, xs, rfl⟩, _⟩ | ⟨_, h1⟩
    · cases h1 with
      | dict _ _ _ h3 _ =>
        rcases hd with h | ⟨fs, h, _⟩ <;> cases h
        exact Or.inl ⟨h3 _ hx, .dictVal h2⟩
    · exact (hdd hd h1).elim
    · cases h1
    · exact (hds hd).elim
    · rcases h1 with ⟨_, _, h1⟩ | ⟨_, h1⟩ <;> cases h1
  | @member w us u _ hu ih =>
    rcases ih with ⟨h1, h2⟩ | h1 | ⟨p, h1⟩ | ⟨_, k, w, h1⟩ | ⟨_, h1⟩
    · by_cases hb : C.isBasic u = true
      · cases u with
        | prim p => exact Or.inr (Or.inr (Or.inl ⟨p, rfl⟩))
        | _ => exact Bool.noConfusion hb
      cases h1 with
      | unionBasic h3 h4 =>
        refine Or.inr (Or.inl (Or.inl ?_))
        cases w <;> simp [typeOf, Config.isBasic] at h3 <;> exact ⟨_, rfl⟩
      | @union _ u0 _ hm hnb h3 =>
        by_cases he : u = u0
        · subst he; exact Or.inl ⟨h3, .union h2 hu⟩
        · rcases hp _ h2 u hu u0 hm (by simpa using hb) hnb he with ⟨ha, k, b, rfl⟩ | ⟨hb', ha⟩
          · cases h3
            exact Or.inr (Or.inr (Or.inr (Or.inr ⟨rfl, ha⟩)))
          · refine Or.inr (Or.inr (Or.inr (Or.inl ⟨?_, hb'⟩)))
            rcases ha with ⟨k', u', rfl⟩ | ⟨us', rfl⟩
            · cases h3 <;> exact ⟨_, _, rfl⟩
            · cases h3; exact ⟨_, _, rfl⟩
    · exact Or.inr (Or.inl h1)
    · cases h1
    · cases h1
    · rcases h1 with ⟨_, _, h1⟩ | ⟨_, h1⟩ <;> cases h1
  | newtype _ ih =>
    rcases ih with ⟨h1, h2⟩ | h1 | ⟨p, h1⟩ | ⟨_, k, w, h1⟩ | ⟨_, h1⟩
    · cases h1 with
      | newtype h3 => exact Or.inl ⟨h3, .newtype h2⟩
    · exact Or.inr (Or.inl h1)
    · cases h1
    · cases h1
    · rcases h1 with ⟨_, _, h1⟩ | ⟨_, h1⟩ <;> cases h1
  | hint _ _ ih =>
    rcases ih with ⟨h1, h2⟩ | h1 | ⟨p, h1⟩ | ⟨_, k, w, h1⟩ | ⟨_, h1⟩
    · cases h1 with
      | enum h3 => exact Or.inr (Or.inl (Or.inr ⟨_, _, rfl⟩))
    · exact Or.inr (Or.inl h1)
    · cases h1
    · cases h1
    · rcases h1 with ⟨_, _, h1⟩ | ⟨_, h1⟩ <;> cases h1
  | field _ hd _ _ _ _ ih =>
    rcases ih with ⟨h1, h2⟩ | h1 | ⟨p, h1⟩ | ⟨_, k, w, h1⟩ | ⟨_, h1⟩
    · exact (hp _ h2).elim
    · exact (hdd hd h1).elim
    · cases h1
    · cases h1
    · rcases h1 with ⟨_, _, h1⟩ | ⟨_, h1⟩ <;> cases h1
  | fref f _ hf hn ih =>
    rcases ih with ⟨h1, h2⟩ | h1 | ⟨p, h1⟩ | ⟨_, k, w, h1⟩ | ⟨_, h1⟩
    · cases h1 with
      | fref g hg hm h3 =>
        rw [hf] at hg; cases hg
        rw [hn] at hm; cases hm
        exact Or.inl ⟨h3, .fref f h2 hf hn⟩
    · exact Or.inr (Or.inl h1)
    · cases h1
    · cases h1
    · rcases h1 with ⟨_, _, h1⟩ | ⟨_, h1⟩ <;> cases h1

theorem Settled.steady {t : Ty} {v r : Val} (hp : ∀ u, Part Γ t u → PlainData C u) (hst : Steady W C Γ v t) (hs : Settled W C Γ t r) : Steady W C Γ r t where
  unnamed := hst.unnamed
  dictSafe := hst.dictSafe
  dictColl := hst.dictColl
  intKeys d kvs w hr hd p hm b he := by
    rcases hs.reaches hp hr with ⟨h1, _⟩ | h1 | ⟨_, h1⟩ | ⟨⟨a, xs, h1⟩, _⟩ | ⟨_, h1⟩
    · cases h1 with
      | dict _ _ h3 _ _ =>
        rcases hd with h | ⟨fs, h, _⟩ <;> cases h
        have := h3 p hm
        rw [he] at this
        cases this with
        | prim h4 => simp [typeOf] at h4
    · rcases hd with rfl | ⟨fs, rfl, _⟩ <;> rcases h1 with ⟨p, h⟩ | ⟨e, n, h⟩ <;> first | cases h | simp [typeOf] at h
    · cases h1
    · subst h1; rcases hd with h | ⟨fs, h, _⟩ <;> cases h
    · rcases h1 with ⟨_, _, h1⟩ | ⟨_, h1⟩ <;> cases h1
  intVals d kvs w hr hd p hm b he := by
    rcases hs.reaches hp hr with ⟨h1, _⟩ | h1 | ⟨_, h1⟩ | ⟨⟨a, xs, h1⟩, _⟩ | ⟨_, h1⟩
    · cases h1 with
      | dict _ _ _ h3 _ =>
        rcases hd with h | ⟨fs, h, _⟩ <;> cases h
        have := h3 p hm
        rw [he] at this
        cases this with
        | prim h4 => simp [typeOf] at h4
    · rcases hd with rfl | ⟨fs, rfl, _⟩ <;> rcases h1 with ⟨p, h⟩ | ⟨e, n, h⟩ <;> first | cases h | simp [typeOf] at h
    · cases h1
    · subst h1; rcases hd with h | ⟨fs, h, _⟩ <;> cases h
    · rcases h1 with ⟨_, _, h1⟩ | ⟨_, h1⟩ <;> cases h1

theorem Part.goes {t : Ty} {v : Val} (hp : ∀ u, Part Γ t u → PlainData C u) (hst : Steady W C Γ v t) : Walk W C Γ (Part Γ t) (Reaches W C Γ v t) where
  plain := hp
  coll _ _ h := .coll h
  tuple _ h _ hu := .tuple h hu
  dict _ _ h := ⟨.dictKey h, .dictVal h⟩
  union _ h _ hu := .union h hu
  newtype _ _ h := .newtype h
  fref f _ _ hf h hn := .fref f h hf hn
  pcoll _ _ _ _ h hnd hi _ hx := .elem h hnd hi hx
  ptuple _ _ _ h hnd hi _ _ hx := .item h hnd hi hx
  pdict _ _ _ _ h hd _ hx := ⟨.key h hd hx, .val h hd hx⟩
  punion _ _ h _ hu := .member h hu
  pnewtype _ _ _ h := .newtype h
  pfref _ f _ _ hf h hn := .fref f h hf hn
  exact d k w kvs hr hk p hm := by
    constructor <;> intro hb <;> rcases basicInstance_exact hb with he | ⟨rfl, b, he⟩
    · exact he
    · exact absurd he (hst.intKeys d kvs w hr hk p hm b)
    · exact he
    · exact absurd he (hst.intVals d kvs k hr hk p hm b)

/-- **C49** If `load(v, T)` returns `r`, then `load(r, T)` returns `r`, on the same loader or on any other one for which the names mean
the same, whatever they did before. -/
theorem C49_idempotent_partial (hd : C.Default) (h1 : W.NotRequiredLaw) (h2 : W.SteadyTags) (hl : W.Lawful) (hu : C.uniondebugconflict = false)
    {s s' s1 : LState} (hs : Reachable W C s) (hs' : Reachable W C s') {v : Val} {t : Ty} {r : Val}
    (hn : SameNames W (namesIn W s t) (namesIn W s' t) t) (hst : Steady W C (namesIn W s t) v t)
    (hp : ∀ u, Part (namesIn W s t) t u → PlainData C u) (h : Loads W C s v t r s1) : ∃ s2, Loads W C s' r t r s2 := by
  obtain ⟨hh, hpk, ho⟩ := Yields.of_loads hd h1 h2 hs (.refl _ _) hst h
  obtain ⟨n, ho⟩ := ho.exists
  have hset : Settled W C (namesIn W s t) t r := Ens.run hd hl (Part.goes hp hst) hu n hh v t .self .self hpk r ho
  exact (hset.yields hd hu (Part.goes hp hst) .self).loads hd h1 h2 hs' hn (hset.steady hp hst)

/-- **C49** For all types of plain data without dictionaries and forward references: loading the result again with the same loader returns
it unchanged. -/
theorem C49_again (hd : C.Default) (h1 : W.NotRequiredLaw) (h2 : W.SteadyTags) (hl : W.Lawful) (hu : C.uniondebugconflict = false)
    {s s1 : LState} (hs : Reachable W C s) {v : Val} {t : Ty} {r : Val} (hf : ∀ n, ¬ Uses W (namesIn W s t) t (.fref n))
    (hdict : ∀ k w, ¬ Uses W (namesIn W s t) t (.dict k w)) (hp : ∀ u, Part (namesIn W s t) t u → PlainData C u) (h : Loads W C s v t r s1) :
    ∃ s2, Loads W C s1 r t r s2 := by
  refine C49_idempotent_partial hd h1 h2 hl hu hs (hs.ok h) ⟨?_, fun _ _ _ _ n hn => absurd hn (hf n)⟩
    ⟨fun _ n _ hn => absurd hn (hf n), fun k w hn => absurd hn (hdict k w), fun k w hn => absurd hn (hdict k w),
      fun _ _ _ hn => absurd hn.uses (hdict _ _), fun _ _ _ hn => absurd hn.uses (hdict _ _)⟩ hp h
  have := ((AfterLoads.refl (W := W) (C := C) (s := s)).ok h).ext.frefs_none
  unfold namesIn
  cases ha : s.frefs <;> cases hb : s1.frefs <;> rw [ha, hb] at this <;> simp at this ⊢

/-! ## Counterexamples: what the conditions exclude -/

/-- Two iterable members: `Union[Tuple[int, int], Set[int]]` with `failonextra` on `[1, 1, 2]` is a set, which is then a tuple. -/
theorem C49_union_counterexample : ∃ r s1 r' s2,
    Loads Sample.W { Sample.C with failonextra := true } (fresh []) (.list [.int 1, .int 1, .int 2])
      (.union [.tuple [.prim .int, .prim .int], .coll .set (.prim .int)]) r s1 ∧
    Loads Sample.W { Sample.C with failonextra := true } s1 r (.union [.tuple [.prim .int, .prim .int], .coll .set (.prim .int)]) r' s2 ∧ r ≠ r' :=
  ⟨_, _, _, _, ⟨9, rfl⟩, ⟨9, rfl⟩, by decide⟩

/-- Objects are not plain data: an instance cannot be loaded again. -/
theorem C49_object_counterexample : ∃ r s1 e s2,
    Loads Sample.W Sample.C (fresh []) (.dict [(.str "x", .str "5"), (.str "zed", .str "q")]) (.obj 0) r s1 ∧ Raises Sample.W Sample.C s1 r (.obj 0) e s2 :=
  ⟨_, _, _, _, ⟨9, rfl⟩, ⟨9, rfl⟩⟩

/-! ## The hypotheses are met -/

/-- `Optional[List[Tuple[int, str]]]` on `[("5", "x")]`. -/
example : ∃ r s1, Loads Sample.W Sample.C (fresh []) (.list [.tuple [.str "5", .str "x"]]) (.union [.coll .list (.tuple [.prim .int, .prim .str]), .prim .none]) r s1 ∧
    ∃ s2, Loads Sample.W Sample.C s1 r (.union [.coll .list (.tuple [.prim .int, .prim .str]), .prim .none]) r s2 := by
  have hl : ∃ r s1, Loads Sample.W Sample.C (fresh []) (.list [.tuple [.str "5", .str "x"]])
      (.union [.coll .list (.tuple [.prim .int, .prim .str]), .prim .none]) r s1 := ⟨_, _, ⟨9, rfl⟩⟩
  obtain ⟨r, s1, hl⟩ := hl
  have hu : ∀ {Γ u}, Uses Sample.W Γ (.union [.coll .list (.tuple [.prim .int, .prim .str]), .prim .none]) u →
      u = .union [.coll .list (.tuple [.prim .int, .prim .str]), .prim .none] ∨ u = .coll .list (.tuple [.prim .int, .prim .str]) ∨
      u = .tuple [.prim .int, .prim .str] ∨ u = .prim .int ∨ u = .prim .str ∨ u = .prim .none := by
    intro Γ u h
    induction h <;> simp_all <;> grind
  refine ⟨r, s1, hl, C49_again (C := Sample.C) rfl Sample.notRequiredLaw Sample.steadyTags Sample.lawful rfl (Reachable.new (some []) []) (fun n h => ?_) (fun k w h => ?_)
    (fun u h => ?_) hl⟩
  · have := hu h; simp at this
  · have := hu h; simp at this
  · have h' : Uses Sample.W (namesIn Sample.W (fresh []) (.union [.coll .list (.tuple [.prim .int, .prim .str]), .prim .none]))
        (.union [.coll .list (.tuple [.prim .int, .prim .str]), .prim .none]) u := by
      induction h with
      | self => exact .self
      | coll _ ih => exact .coll ih
      | tuple _ h ih => exact .tuple ih h
      | dictKey _ ih => exact .dictKey ih
      | dictVal _ ih => exact .dictVal ih
      | union _ h ih => exact .union ih h
      | newtype _ ih => exact .newtype ih
      | fref f _ h1 h2 ih => exact .fref f ih h1 h2
    rcases hu h' with rfl | rfl | rfl | rfl | rfl | rfl <;> first | trivial | skip
    intro a ha b hb h1 h2 hne
    simp at ha hb
    rcases ha with rfl | rfl <;> rcases hb with rfl | rfl <;> first | exact absurd rfl hne | exact Bool.noConfusion h1 | exact Bool.noConfusion h2

end TL
