import Verif.Lemmas.Sem
/-!
# Termination of the loader

`Tot m Q`: from every good state, with enough fuel `m` returns (a result satisfying `Q`) or raises, always in the same way, and leaves
a good state.  `SubCall` is the relation between a call of a handler and the calls it makes in turn; a call from which no infinite
sequence of calls starts terminates (`Tot.run`).
-/

namespace TL

variable {W : World} {C : Config} {G : Ty → Prop} {F : String → Ty → Prop} {α β : Type}

/-- From good states, `m` returns a result satisfying `Q` or raises, when it is given enough fuel. -/
def Tot (W : World) (C : Config) (F : String → Ty → Prop) (m : Nat → L α) (Q : α → Prop) : Prop :=
  ∀ s, Good W C F s → ∃ N, (∃ a s', Good W C F s' ∧ Q a ∧ ∀ n, N ≤ n → m n s = .ok a s') ∨
    (∃ e s', Good W C F s' ∧ ∀ n, N ≤ n → m n s = .err e s')

theorem Tot.pure {a : α} {Q : α → Prop} (h : Q a) : Tot W C F (fun _ => (pure a : L α)) Q :=
  fun s hs => ⟨0, Or.inl ⟨a, s, hs, h, fun _ _ => rfl⟩⟩
theorem Tot.throw {e : Exc} {Q : α → Prop} : Tot W C F (fun _ => (M.throw e : L α)) Q :=
  fun s hs => ⟨0, Or.inr ⟨e, s, hs, fun _ _ => rfl⟩⟩
theorem Tot.lift {x : Except Exc α} {Q : α → Prop} (h : ∀ a, x = .ok a → Q a) : Tot W C F (fun _ => (M.lift x : L α)) Q := by
  cases x with
  | ok a => exact Tot.pure (h a rfl)
  | error e => exact Tot.throw
theorem Tot.mono {m : Nat → L α} {Q Q' : α → Prop} (h : Tot W C F m Q) (hq : ∀ a, Q a → Q' a) : Tot W C F m Q' := by
  intro s hs
  obtain ⟨N, h | h⟩ := h s hs
  · obtain ⟨a, s', h1, h2, h3⟩ := h; exact ⟨N, Or.inl ⟨a, s', h1, hq a h2, h3⟩⟩
  · exact ⟨N, Or.inr h⟩
theorem Tot.triv {m : Nat → L α} {Q : α → Prop} (h : Tot W C F m Q) : Tot W C F m (fun _ => True) := h.mono (fun _ _ => trivial)

/-- A computation without recursive calls. -/
theorem Tot.const {m : L α} {Q : Except Exc α → Prop} (h : Sat W C F m Q) (hd : ∀ s, Good W C F s → m s ≠ .div) :
    Tot W C F (fun _ => m) (fun a => Q (.ok a)) := by
  intro s hs
  have := h s hs
  unfold Post at this
  cases hm : m s with
  | ok a s' => rw [hm] at this; exact ⟨0, Or.inl ⟨a, s', this.1, this.2, fun _ _ => hm⟩⟩
  | err e s' => rw [hm] at this; exact ⟨0, Or.inr ⟨e, s', this.1, fun _ _ => hm⟩⟩
  | div => exact absurd hm (hd s hs)

theorem Tot.bind {m : Nat → L α} {f : Nat → α → L β} {Q : α → Prop} {Q' : β → Prop} (hm : Tot W C F m Q)
    (hf : ∀ a, Q a → Tot W C F (fun n => f n a) Q') : Tot W C F (fun n => m n >>= f n) Q' := by
  intro s hs
  obtain ⟨N, ⟨a, s', h1, h2, h3⟩ | ⟨e, s', h1, h3⟩⟩ := hm s hs
  · obtain ⟨N', h'⟩ := hf a h2 s' h1
    have key : ∀ n, max N N' ≤ n → (m n >>= f n) s = f n a s' := fun n hn => by rw [M.bind_apply, h3 n (by omega)]
    rcases h' with ⟨b, s2, g1, g2, g3⟩ | ⟨e, s2, g1, g3⟩
    · exact ⟨max N N', Or.inl ⟨b, s2, g1, g2, fun n hn => (key n hn).trans (g3 n (by omega))⟩⟩
    · exact ⟨max N N', Or.inr ⟨e, s2, g1, fun n hn => (key n hn).trans (g3 n (by omega))⟩⟩
  · exact ⟨N, Or.inr ⟨e, s', h1, fun n hn => by show (m n >>= f n) s = _; rw [M.bind_apply, h3 n hn]⟩⟩

theorem Tot.handle {m : Nat → L α} {f : Nat → α → L β} {g : Nat → Exc → L β} {Q : α → Prop} {Q' : β → Prop} (hm : Tot W C F m Q)
    (hf : ∀ a, Q a → Tot W C F (fun n => f n a) Q') (hg : ∀ e, Tot W C F (fun n => g n e) Q') :
    Tot W C F (fun n => M.handle (m n) (f n) (g n)) Q' := by
  intro s hs
  obtain ⟨N, ⟨a, s', h1, h2, h3⟩ | ⟨e, s', h1, h3⟩⟩ := hm s hs
  · obtain ⟨N', h'⟩ := hf a h2 s' h1
    have key : ∀ n, max N N' ≤ n → (M.handle (m n) (f n) (g n)) s = f n a s' := fun n hn => by rw [M.handle_apply, h3 n (by omega)]
    rcases h' with ⟨b, s2, g1, g2, g3⟩ | ⟨e, s2, g1, g3⟩
    · exact ⟨max N N', Or.inl ⟨b, s2, g1, g2, fun n hn => (key n hn).trans (g3 n (by omega))⟩⟩
    · exact ⟨max N N', Or.inr ⟨e, s2, g1, fun n hn => (key n hn).trans (g3 n (by omega))⟩⟩
  · obtain ⟨N', h'⟩ := hg e s' h1
    have key : ∀ n, max N N' ≤ n → (M.handle (m n) (f n) (g n)) s = g n e s' := fun n hn => by rw [M.handle_apply, h3 n (by omega)]
    rcases h' with ⟨b, s2, g1, g2, g3⟩ | ⟨e, s2, g1, g3⟩
    · exact ⟨max N N', Or.inl ⟨b, s2, g1, g2, fun n hn => (key n hn).trans (g3 n (by omega))⟩⟩
    · exact ⟨max N N', Or.inr ⟨e, s2, g1, fun n hn => (key n hn).trans (g3 n (by omega))⟩⟩

theorem Tot.rescue {m : Nat → L α} {f : Nat → Exc → L α} {Q : α → Prop} (hm : Tot W C F m Q)
    (hf : ∀ e, Tot W C F (fun n => f n e) Q) : Tot W C F (fun n => M.rescue (m n) (f n)) Q := by
  have : (fun n => M.rescue (m n) (f n)) = fun n => M.handle (m n) (fun a => (Pure.pure a : L α)) (f n) := rfl
  rw [this]
  exact Tot.handle hm (fun a ha => Tot.pure ha) hf

theorem Tot.succ {m : Nat → L α} {Q : α → Prop} (h : Tot W C F (fun n => m (n + 1)) Q) : Tot W C F m Q := by
  intro s hs
  obtain ⟨N, h⟩ := h s hs
  have key : ∀ n, N + 1 ≤ n → ∃ k, n = k + 1 ∧ N ≤ k := fun n hn => ⟨n - 1, by omega, by omega⟩
  rcases h with ⟨a, s', h1, h2, h3⟩ | ⟨e, s', h1, h3⟩
  · refine ⟨N + 1, Or.inl ⟨a, s', h1, h2, fun n hn => ?_⟩⟩
    obtain ⟨k, rfl, hk⟩ := key n hn; exact h3 k hk
  · refine ⟨N + 1, Or.inr ⟨e, s', h1, fun n hn => ?_⟩⟩
    obtain ⟨k, rfl, hk⟩ := key n hn; exact h3 k hk

theorem Tot.resolve (t : Ty) (e : Exc) : Tot W C F (fun _ => resolve W C t e) (fun h => pick W C t = .ok h) := by
  refine (Tot.const (Sat.resolve t e) ?_).mono ?_
  · intro s hs; rw [resolve_eq hs.coh]; cases pick W C t <;> simp
  · intro h hh
    cases hp : pick W C t with
    | error c => rw [hp] at hh; cases hh
    | ok h2 => rw [hp] at hh; cases hh; rfl

/-! ## The calls made by a handler -/

/-- `x` is the value of some key of the dictionary or Namespace `v`. -/
def ValueOf (v x : Val) : Prop := (∃ (kvs : List (Val × Val)) (k : Val), v = .dict kvs ∧ (k, x) ∈ kvs) ∨
  ∃ (kvs : List (String × Val)) (k : String), v = .ns kvs ∧ (k, x) ∈ kvs

/-- Loading `v` into `t` may load `x` into `u`. -/
inductive SubCall (W : World) (C : Config) (F : String → Ty → Prop) : Val → Ty → Val → Ty → Prop
  | elem {v xs k u x} : v.isDict = false → pyIter v = some xs → x ∈ xs → SubCall W C F v (.coll k u) x u
  | item {v xs us x u} : v.isDict = false → pyIter v = some xs → x ∈ xs → u ∈ us → SubCall W C F v (.tuple us) x u
  | key {v kvs k u p} : DictData C v kvs → p ∈ kvs → SubCall W C F v (.dict k u) p.1 k
  | val {v kvs k u p} : DictData C v kvs → p ∈ kvs → SubCall W C F v (.dict k u) p.2 u
  | member {v us u} : ¬ ExactBasic C v us → u ∈ us → SubCall W C F v (.union us) v u
  | newtype {v n u} : SubCall W C F v (.newtype n u) v u
  | hint {v e u} : u ∈ (W.enm e).hints → SubCall W C F v (.enum e) v u
  | field {v c f x u} : ValueOf v x → f ∈ (W.cls c).fields → FieldTy (W.cls c).kind f u → SubCall W C F v (.obj c) x u
  | fref {v n u} : F n u → SubCall W C F v (.fref n) v u
  | custom {i v t x u} : Installed C (.custom i) → (W.customLoad i v t).Asks x u → SubCall W C F v t x u

section handlers
variable (hcl : Closed W C G F) {v : Val} {t : Ty} (hg : G t) {rec : Nat → Rec}
  (hrec : ∀ h x u, Installed C h → SubCall W C F v t x u → Tot W C F (fun n => rec n h x u) (fun _ => True))

theorem Tot.loadWith (hcl : Closed W C G F) {x : Val} {u : Ty} (hu : G u) (hr : ∀ h, Installed C h → Tot W C F (fun n => rec n h x u) (fun _ => True))
    (a : Option Annotation) : Tot W C F (fun n => loadWith W C (rec n) x u a) (fun _ => True) := by
  intro s hs
  cases hp : pick W C u with
  | error c => exact ⟨0, Or.inr ⟨_, s, hs, fun n _ => by show TL.loadWith W C (rec n) x u a s = _; rw [loadWith_eq hs.coh, hp]⟩⟩
  | ok h =>
    obtain ⟨N, ⟨r, s', h1, _, h3⟩ | ⟨e, s', h1, h3⟩⟩ := hr h (pick_installed hp) _ (hs.cacheReg hcl hu hp)
    · exact ⟨N, Or.inl ⟨r, s', h1, trivial, fun n hn => by show TL.loadWith W C (rec n) x u a s = _; rw [loadWith_eq hs.coh, hp]; exact (by have := h3 n hn; dsimp only at this ⊢; rw [this])⟩⟩
    · exact ⟨N, Or.inr ⟨_, s', h1, fun n hn => by show TL.loadWith W C (rec n) x u a s = _; rw [loadWith_eq hs.coh, hp]; exact (by have := h3 n hn; dsimp only at this ⊢; rw [this])⟩⟩

theorem Tot.iterElem {et : Ty} {x : Val} (h : Handler) (hr : Tot W C F (fun n => rec n h x et) (fun _ => True)) :
    Tot W C F (fun n => iterElem C (rec n) h et x) (fun _ => True) := by
  by_cases hp : PassThrough C et x
  · simp only [iterElem_pass _ _ hp]; exact Tot.pure trivial
  · simp only [iterElem_call _ _ hp]; exact hr

theorem Tot.iterElems {et : Ty} (h : Handler) (k : SeqKind) (v0 : Val) (t0 : Ty) (xs : List Val) : ∀ i acc,
    (∀ x ∈ xs, Tot W C F (fun n => rec n h x et) (fun _ => True)) →
    Tot W C F (fun n => iterElems W C (rec n) h k et v0 t0 xs i acc) (fun _ => True) := by
  induction xs with
  | nil => intro i acc _; exact Tot.pure trivial
  | cons x xs ih =>
    intro i acc hr
    unfold TL.iterElems
    refine Tot.handle (Tot.iterElem h (hr x (by simp))) ?_ ?_
    · intro y _
      cases hc : collAdd W k acc y with
      | error c => exact Tot.throw
      | ok acc' => exact ih (i + 1) acc' (fun x' hx' => hr x' (by simp [hx']))
    · intro e
      split
      · exact Tot.pure trivial
      · exact Tot.throw

include hrec in
theorem Tot.iterload (k : SeqKind) : Tot W C F (fun n => iterload W C (rec n) k v t) (fun _ => True) := by
  unfold TL.iterload
  split
  · exact Tot.throw
  · rename_i hv
    have hv' : v.isDict = false := by simpa using hv
    split
    · rename_i k' et
      refine Tot.bind (Tot.resolve et _) ?_
      intro h hpk
      cases hx : pyIter v with
      | none => exact Tot.throw
      | some xs =>
        refine Tot.bind (Tot.iterElems h k v _ xs 0 [] (fun x hx' => hrec h x et (pick_installed hpk) (.elem hv' hx hx'))) ?_
        intro ys _; exact Tot.pure trivial
    · exact Tot.throw

theorem Tot.tupHandler (u : Ty) : Tot W C F (fun _ => tupHandler W C u) (fun h => pick W C u = .ok h) := by
  refine (Tot.const (Q := fun o => ∀ h, o = .ok h → pick W C u = .ok h) ?_ ?_).mono (fun h hh => hh h rfl)
  · apply Sat.of_post
    intro s hs
    refine (tupHandler_spec (C := C) hs.coh).mono ?_ ?_
    · rintro h s' ⟨rfl, hp⟩; exact ⟨⟨Ext.refl _, rfl⟩, fun h' e => by cases e; exact hp⟩
    · rintro e s' ⟨rfl, c, hp, rfl⟩; exact ⟨⟨Ext.refl _, rfl⟩, fun h' e => by cases e⟩
  · intro s _
    unfold TL.tupHandler
    rw [M.bind_apply, M.get_apply]
    dsimp only
    cases aget s.idx u with
    | some h => simp
    | none => dsimp only; cases pick W C u <;> simp

theorem Tot.tupElems (v0 : Val) (t0 : Ty) (xs : List Val) : ∀ (us : List Ty) (i : Nat),
    (∀ h x u, Installed C h → x ∈ xs → u ∈ us → Tot W C F (fun n => rec n h x u) (fun _ => True)) →
    Tot W C F (fun n => tupElems W C (rec n) v0 t0 xs us i) (fun _ => True) := by
  induction xs with
  | nil => intro us i _; unfold TL.tupElems; exact Tot.pure trivial
  | cons x xs ih =>
    intro us i hr
    cases us with
    | nil => unfold TL.tupElems; exact Tot.pure trivial
    | cons u us =>
      unfold TL.tupElems
      refine Tot.bind (Q := fun _ => True) (Tot.rescue ?_ (fun _ => Tot.throw)) ?_
      · refine Tot.bind (Tot.tupHandler u) ?_
        intro h hp
        split
        · exact Tot.pure trivial
        · exact hr h x u (pick_installed hp) (by simp) (by simp)
      · intro y _
        refine Tot.bind (ih us (i + 1) (fun h x' u' hi h1 h2 => hr h x' u' hi (by simp [h1]) (by simp [h2]))) ?_
        intro ys _; exact Tot.pure trivial

include hrec in
theorem Tot.tupleload : Tot W C F (fun n => tupleload W C (rec n) v t) (fun _ => True) := by
  unfold TL.tupleload
  split
  · exact Tot.iterload hrec .tuple
  · rename_i ts
    split
    · exact Tot.throw
    · rename_i hv
      have hv' : v.isDict = false := by simpa using hv
      cases hx : pyIter v with
      | none => exact Tot.throw
      | some xs =>
        dsimp only
        split
        · exact Tot.throw
        · split
          · exact Tot.throw
          · refine Tot.bind (Tot.tupElems v _ xs ts 0 (fun h x u hi h1 h2 => hrec h x u hi (.item hv' hx h1 h2))) ?_
            intro ys _; exact Tot.pure trivial
  · exact Tot.throw

theorem Tot.dictFast {kt vt : Ty} {keyF : Handler} {valF : Option Handler} (hki : Installed C keyF) (hvi : ∀ h, valF = some h → Installed C h)
    (kvs : List (Val × Val)) : ∀ acc,
    (∀ h, Installed C h → ∀ p ∈ kvs, Tot W C F (fun n => rec n h p.1 kt) (fun _ => True)) →
    (∀ h, Installed C h → ∀ p ∈ kvs, Tot W C F (fun n => rec n h p.2 vt) (fun _ => True)) →
    Tot W C F (fun n => dictFast W C (rec n) kt vt keyF valF kvs acc) (fun _ => True) := by
  induction kvs with
  | nil => intro acc _ _; exact Tot.pure trivial
  | cons p kvs ih =>
    obtain ⟨k, x⟩ := p
    intro acc h1 h2
    simp only [dictFast_cons]
    refine Tot.bind (Q := fun _ => True) ?_ ?_
    · split
      · exact Tot.pure trivial
      · exact h1 keyF hki (k, x) (by simp)
    · intro k' _
      refine Tot.bind (Q := fun _ => True) ?_ ?_
      · split
        · exact Tot.pure trivial
        · cases valF with
          | none => exact Tot.throw
          | some hh => exact h2 hh (hvi hh rfl) (k, x) (by simp)
      · intro x' _
        split
        · exact ih _ (fun h hi p hp => h1 h hi p (by simp [hp])) (fun h hi p hp => h2 h hi p (by simp [hp]))
        · exact Tot.throw

theorem Tot.dictSlow (hcl : Closed W C G F) {kt vt : Ty} (hk : G kt) (hv : G vt) (kvs : List (Val × Val)) : ∀ acc,
    (∀ h, Installed C h → ∀ p ∈ kvs, Tot W C F (fun n => rec n h p.1 kt) (fun _ => True)) →
    (∀ h, Installed C h → ∀ p ∈ kvs, Tot W C F (fun n => rec n h p.2 vt) (fun _ => True)) →
    Tot W C F (fun n => dictSlow W C (rec n) kt vt kvs acc) (fun _ => True) := by
  induction kvs with
  | nil => intro acc _ _; exact Tot.pure trivial
  | cons p kvs ih =>
    obtain ⟨k, x⟩ := p
    intro acc h1 h2
    unfold TL.dictSlow
    refine Tot.bind (Tot.loadWith hcl hk (fun h hi => h1 h hi (k, x) (by simp)) _) ?_
    intro k' _
    refine Tot.bind (Tot.loadWith hcl hv (fun h hi => h2 h hi (k, x) (by simp)) _) ?_
    intro x' _
    split
    · exact ih _ (fun h hi p hp => h1 h hi p (by simp [hp])) (fun h hi p hp => h2 h hi p (by simp [hp]))
    · exact Tot.throw

include hcl hg hrec in
theorem Tot.dictload : Tot W C F (fun n => dictload W C (rec n) v t) (fun _ => True) := by
  unfold TL.dictload
  split
  · rename_i kt vt
    refine Tot.bind (Tot.resolve kt _) ?_
    intro keyF0 hp0
    refine Tot.bind (Tot.const (Sat.dictValueHandler v _ vt keyF0) ?_) ?_
    · intro s hs
      rw [dictValueHandler_eq hs.coh]
      cases pick W C vt <;> simp
    · rintro ⟨keyF, valF⟩ ⟨hv, hpv, hcase⟩
      have hcase' : keyF = keyF0 ∧ valF = some hv ∨ keyF = hv ∧ valF = none := by
        rcases hcase with h | h <;> cases h
        · exact Or.inl ⟨rfl, rfl⟩
        · exact Or.inr ⟨rfl, rfl⟩
      have hki : Installed C keyF := by
        rcases hcase' with ⟨h, _⟩ | ⟨h, _⟩ <;> rw [h]
        · exact pick_installed hp0
        · exact pick_installed hpv
      have hvi : ∀ h, valF = some h → Installed C h := by
        intro h he
        rcases hcase' with ⟨_, h2⟩ | ⟨_, h2⟩ <;> rw [h2] at he <;> cases he
        exact pick_installed hpv
      dsimp only
      cases hit : items (dictequivalence C v) with
      | none => exact Tot.rescue Tot.throw (fun _ => Tot.rescue Tot.throw (fun e => by split <;> exact Tot.throw))
      | some kvs =>
        have hdata := (items_dictequivalence (C := C) v kvs).1 hit
        have h1 : ∀ h, Installed C h → ∀ p ∈ kvs, Tot W C F (fun n => rec n h p.1 kt) (fun _ => True) := fun h hi p hp => hrec h _ _ hi (.key hdata hp)
        have h2 : ∀ h, Installed C h → ∀ p ∈ kvs, Tot W C F (fun n => rec n h p.2 vt) (fun _ => True) := fun h hi p hp => hrec h _ _ hi (.val hdata hp)
        refine Tot.rescue ?_ (fun _ => Tot.rescue ?_ (fun e => by split <;> exact Tot.throw))
        · exact Tot.bind (Tot.dictFast hki hvi kvs [] h1 h2) (fun _ _ => Tot.pure trivial)
        · exact Tot.bind (Tot.dictSlow hcl (hcl.dictKey _ _ hg) (hcl.dictVal _ _ hg) kvs [] h1 h2) (fun _ _ => Tot.pure trivial)
  · exact Tot.throw

theorem Tot.objFields (info : ObjInfo) (v0 : Val) (t0 : Ty) (kvs : List (Val × Val)) : ∀ acc,
    (∀ h m ft, Installed C h → aget info.hints m = some ft → ∀ p ∈ kvs, Tot W C F (fun n => rec n h p.2 ft) (fun _ => True)) →
    Tot W C F (fun n => objFields W C (rec n) info v0 t0 kvs acc) (fun _ => True) := by
  induction kvs with
  | nil => intro acc _; exact Tot.pure trivial
  | cons p kvs ih =>
    obtain ⟨k, x⟩ := p
    intro acc hr
    have hr' : ∀ h m ft, Installed C h → aget info.hints m = some ft → ∀ p ∈ kvs, Tot W C F (fun n => rec n h p.2 ft) (fun _ => True) :=
      fun h m ft hi hm p hp => hr h m ft hi hm p (by simp [hp])
    by_cases hk : isFieldKey info.fields k = true
    · have : ∃ m, k = .str m ∧ m ∈ info.fields := by
        cases k <;> simp [isFieldKey] at hk
        exact ⟨_, rfl, hk⟩
      obtain ⟨m, rfl, hm⟩ := this
      simp only [objFields_field _ _ _ _ hm]
      cases hh : aget info.hints m with
      | none => exact Tot.throw
      | some ft =>
        dsimp only
        refine Tot.bind (Tot.resolve ft _) ?_
        intro h hp
        refine Tot.bind (Q := fun _ => True) (Tot.rescue (hr h m ft (pick_installed hp) hh (.str m, x) (by simp)) (fun e => by split <;> exact Tot.throw)) ?_
        intro y _
        exact ih _ hr'
    · have hk' : isFieldKey info.fields k = false := by simpa using hk
      simp only [objFields_other _ _ _ _ hk']
      exact ih acc hr'

theorem objItems_values {x : Val} {p : Val × List (Val × Val)} (h : objItems C x = some p) : ∀ q ∈ p.2, ValueOf x q.2 := by
  intro q hq
  unfold objItems at h
  split at h
  · cases h; exact Or.inl ⟨_, q.1, rfl, hq⟩
  · rename_i kvs
    split at h
    · cases h
      simp only [List.mem_map] at hq
      obtain ⟨r, hr, rfl⟩ := hq
      exact Or.inr ⟨kvs, r.1, rfl, hr⟩
    · cases h
  · cases h

theorem Tot.objloader (info : ObjInfo) (w : Val) (c : Nat)
    (hr : ∀ h m ft, Installed C h → aget info.hints m = some ft → ∀ x, ValueOf w x → Tot W C F (fun n => rec n h x ft) (fun _ => True)) :
    Tot W C F (fun n => objloader W C (rec n) info w c) (fun _ => True) := by
  unfold TL.objloader
  cases hi : objItems C w with
  | none => exact Tot.throw
  | some p =>
    obtain ⟨v', kvs⟩ := p
    dsimp only
    split
    · exact Tot.throw
    · split
      · split <;> exact Tot.throw
      · refine Tot.bind (Tot.objFields info v' _ kvs [] ?_) ?_
        · intro h m ft hin hm q hq
          exact hr h m ft hin hm q.2 (objItems_values hi q hq)
        · intro params _
          cases construct W c params with
          | ok r => exact Tot.pure trivial
          | error e =>
            dsimp only
            split
            · exact Tot.throw
            · split <;> exact Tot.throw

theorem dset_values {kvs : List (Val × Val)} {k x : Val} : ∀ q ∈ dset kvs k x, q.2 = x ∨ ∃ q' ∈ kvs, q'.2 = q.2 := by
  induction kvs with
  | nil => intro q hq; simp [dset] at hq; subst hq; exact Or.inl rfl
  | cons p kvs ih =>
    intro q hq
    unfold dset at hq
    split at hq
    · rcases List.mem_cons.1 hq with h | h
      · subst h; exact Or.inl rfl
      · exact Or.inr ⟨q, by simp [h], rfl⟩
    · rcases List.mem_cons.1 hq with h | h
      · exact Or.inr ⟨p, by simp, by rw [h]⟩
      · rcases ih q h with h | ⟨q', h1, h2⟩
        · exact Or.inl h
        · exact Or.inr ⟨q', by simp [h1], h2⟩

theorem mangleLoop_values (tr : List (String × String)) (foe : Bool) (kvs : List (Val × Val)) : ∀ (acc r : List (Val × Val)),
    mangleLoop tr foe kvs acc = .ok r → ∀ q ∈ r, (∃ q' ∈ kvs, q'.2 = q.2) ∨ ∃ q' ∈ acc, q'.2 = q.2 := by
  induction kvs with
  | nil => intro acc r h q hq; cases h; exact Or.inr ⟨q, hq, rfl⟩
  | cons p kvs ih =>
    obtain ⟨k, x⟩ := p
    intro acc r h q hq
    have step : ∀ k', mangleLoop tr foe kvs (dset acc k' x) = .ok r → (∃ q' ∈ (k, x) :: kvs, q'.2 = q.2) ∨ ∃ q' ∈ acc, q'.2 = q.2 := by
      intro k' h
      rcases ih _ _ h q hq with ⟨q', h1, h2⟩ | ⟨q', h1, h2⟩
      · exact Or.inl ⟨q', by simp [h1], h2⟩
      · rcases dset_values q' h1 with h3 | ⟨q2, h3, h4⟩
        · exact Or.inl ⟨(k, x), by simp, by rw [← h2, h3]⟩
        · exact Or.inr ⟨q2, h3, by rw [h4, h2]⟩
    cases hk : strKey k with
    | none => rw [mangleLoop_other _ _ hk] at h; exact step _ h
    | some m =>
      have : k = .str m := by cases k <;> simp [strKey] at hk; rw [hk]
      subst this
      rw [mangleLoop_str] at h
      split at h
      · exact step _ h
      · split at h
        · cases h
        · rcases ih _ _ h q hq with ⟨q', h1, h2⟩ | h
          · exact Or.inl ⟨q', by simp [h1], h2⟩
          · exact Or.inr h
      · exact step _ h

include hrec in
theorem Tot.objhandler (c : Nat) (hc : t = .obj c) : Tot W C F (fun n => step W C (rec n) (objHandler (W.cls c).kind) v t) (fun _ => True) := by
  subst hc
  have plain : ∀ info, InfoFor W C c info → ∀ w, (∀ x, ValueOf w x → ValueOf v x) →
      Tot W C F (fun n => TL.objloader W C (rec n) info w c) (fun _ => True) := by
    intro info hi w hw
    apply Tot.objloader
    intro h m ft hin hm x hx
    obtain ⟨f, hf, _, hty⟩ := hi.hints m ft hm
    exact hrec h x ft hin (.field (hw x hx) hf hty)
  have mangled : ∀ info, InfoFor W C c info →
      Tot W C F (fun n => mangleOrRaise C info.transforms v (.obj c) >>= fun v' => TL.objloader W C (rec n) info v' c) (fun _ => True) := by
    intro info hi
    unfold mangleOrRaise
    cases hm : mangle_names info.transforms v C.failonextra with
    | error x =>
      refine Tot.bind (Q := fun _ => False) ?_ (fun w h => h.elim)
      dsimp only
      split
      · exact Tot.throw
      · split <;> exact Tot.throw
    | ok v' =>
      refine Tot.bind (Q := fun a => a = v') (Tot.pure rfl) ?_
      rintro a rfl
      apply plain info hi
      rcases mangle_names_ok hm with ⟨_, rfl⟩ | ⟨kvs, kvs', rfl, rfl, _, hl⟩
      · exact fun _ h => h
      · rintro x (⟨l, k, h1, h2⟩ | ⟨l, k, h1, _⟩)
        · cases h1
          rcases mangleLoop_values _ _ _ _ _ hl _ h2 with ⟨q', g1, g2⟩ | ⟨q', g1, _⟩
          · exact Or.inl ⟨kvs, q'.1, rfl, by have g2 : q'.2 = x := g2; rw [← g2]; exact g1⟩
          · cases g1
        · cases h1
  cases hk : (W.cls c).kind with
  | namedtuple =>
    show Tot W C F (fun n => namedtupleload W C (rec n) v (.obj c)) _
    simp only [namedtupleload_eq _ hk]
    exact plain _ (infoFor_namedtuple hk) v (fun _ h => h)
  | typeddict =>
    show Tot W C F (fun n => typeddictload W C (rec n) v (.obj c)) _
    simp only [typeddictload_eq _ hk]
    refine Tot.bind (Q := fun _ => True) (m := fun _ => M.get) (fun s hs => ⟨0, Or.inl ⟨s, s, hs, trivial, fun _ _ => rfl⟩⟩) ?_
    intro s0 _
    refine Tot.bind (Q := fun _ => True) ?_ ?_
    · refine (Tot.const (Q := fun _ => True) ?_ (fun s _ => by simp)).triv
      apply Sat.of_post
      intro s hs
      rw [post_modify]
      unfold rewriteAnnotations
      split
      · exact ⟨⟨Ext.rew, rfl⟩, trivial⟩
      · exact ⟨⟨Ext.refl s, rfl⟩, trivial⟩
    · intro _ _
      exact plain _ (infoFor_typeddict hk _) v (fun _ h => h)
  | dataclass =>
    show Tot W C F (fun n => dataclassload W C (rec n) v (.obj c)) _
    simp only [dataclassload_eq _ hk]
    refine Tot.bind (Q := fun i => i = dataclassInfo C (W.cls c)) ?_ ?_
    · refine (Tot.const (Q := fun o => o = .ok (dataclassInfo C (W.cls c))) ?_ ?_).mono (fun a h => by cases h; rfl)
      · apply Sat.of_post
        intro s hs
        unfold dataclassCached
        rw [post_bind, post_get]
        cases ho : aget s.objc c with
        | some i => exact ⟨⟨Ext.refl s, rfl⟩, by rw [hs.coh.objc c i ho]⟩
        | none => exact ⟨⟨Ext.objc ho, rfl⟩, rfl⟩
      · intro s _
        unfold dataclassCached
        rw [M.bind_apply, M.get_apply]
        dsimp only
        cases aget s.objc c <;> simp [M.bind_apply]
    · rintro i rfl
      exact mangled _ (infoFor_dataclass hk)
  | attrs =>
    show Tot W C F (fun n => attrload W C (rec n) v (.obj c)) _
    simp only [attrload_eq _ hk]
    cases hh : attrHints (W.cls c).fields with
    | error x => exact Tot.throw
    | ok hints => exact mangled _ (infoFor_attrs hk hh)

theorem Tot.unionTry (v0 : Val) (t0 : Ty) (us : List Ty) : ∀ (c : Nat) (r : Val) (es : List Exc),
    (∀ h, Installed C h → ∀ u ∈ us, Tot W C F (fun n => rec n h v0 u) (fun _ => True)) →
    Tot W C F (fun n => unionTry W C (rec n) v0 t0 us c r es) (fun _ => True) := by
  induction us with
  | nil => intro c r es _; exact Tot.pure trivial
  | cons u us ih =>
    intro c r es hr
    have hr' : ∀ h, Installed C h → ∀ u ∈ us, Tot W C F (fun n => rec n h v0 u) (fun _ => True) := fun h hi u' hu' => hr h hi u' (by simp [hu'])
    unfold TL.unionTry
    refine Tot.handle (Q := fun _ => True) (Tot.bind (Tot.resolve u _) (fun h hp => hr h (pick_installed hp) u (by simp))) ?_ ?_
    · intro x _
      split
      · exact ih _ _ _ hr'
      · exact Tot.pure trivial
    · intro e
      split
      · exact ih _ _ _ hr'
      · exact Tot.throw

include hrec in
theorem Tot.unionload : Tot W C F (fun n => unionload W C (rec n) v t) (fun _ => True) := by
  unfold TL.unionload
  split
  · rename_i ts
    by_cases hb : (C.isBasic (typeOf v) && ts.contains (typeOf v)) = true
    · simp only [if_pos hb]; exact Tot.pure trivial
    · simp only [if_neg hb]
      have hne : ¬ ExactBasic C v ts := by
        intro h; apply hb; simp only [Bool.and_eq_true, List.contains_iff_mem]; exact h
      refine Tot.bind (Tot.const (Sat.unionOrder v ts) ?_) ?_
      · intro s hs
        unfold TL.unionOrder
        split
        · rw [M.bind_apply]
          have : discCached W ts s ≠ .div := by
            unfold discCached
            rw [M.bind_apply, M.get_apply]
            dsimp only
            cases aget s.disc (.union (W.unionKey ts)) <;> simp [M.bind_apply]
          cases hdc : discCached W ts s with
          | div => exact absurd hdc this
          | err e s' => simp
          | ok d s' =>
            dsimp only
            split
            · simp
            · split
              · simp
              · split
                · cases dget _ _ <;> simp
                · simp
        · simp
      · intro order hord
        have hord : TryOrder W C v ts order := hord
        refine Tot.bind (Tot.unionTry v _ order 0 .none [] ?_) ?_
        · intro h hi u hu
          exact hrec h v u hi (.member hne (hord.perm.mem_iff.1 hu))
        · rintro ⟨c, r, es⟩ _
          dsimp only
          split
          · exact Tot.pure trivial
          · split <;> exact Tot.throw
  · exact Tot.throw

theorem Tot.enumHints (hcl : Closed W C G F) (v0 : Val) (e : Nat) (us : List Ty) : ∀ (es : List Exc), (∀ u ∈ us, G u) →
    (∀ h, Installed C h → ∀ u ∈ us, Tot W C F (fun n => rec n h v0 u) (fun _ => True)) →
    Tot W C F (fun n => enumHints W C (rec n) v0 e us es) (fun _ => True) := by
  induction us with
  | nil => intro es _ _; exact Tot.throw
  | cons u us ih =>
    intro es hg hr
    unfold TL.enumHints
    refine Tot.rescue (Tot.bind (Tot.loadWith hcl (hg u (by simp)) (fun h hi => hr h hi u (by simp)) _) ?_) ?_
    · intro x _
      cases enumCall W e x with
      | some m => exact Tot.pure trivial
      | none => exact Tot.throw
    · intro ex
      exact ih _ (fun u' hu' => hg u' (by simp [hu'])) (fun h hi u' hu' => hr h hi u' (by simp [hu']))

include hcl hg hrec in
theorem Tot.enumload : Tot W C F (fun n => enumload W C (rec n) v t) (fun _ => True) := by
  unfold TL.enumload
  split
  · rename_i e
    cases enumCall W e v with
    | some m => exact Tot.pure trivial
    | none => exact Tot.enumHints hcl v e _ [] (hcl.enum e hg) (fun h hi u hu => hrec h v u hi (.hint hu))
  · exact Tot.throw

include hcl hrec in
theorem Tot.forwardrefload : Tot W C F (fun n => forwardrefload W C (rec n) v t) (fun _ => True) := by
  unfold TL.forwardrefload
  split
  · rename_i n
    intro s hs
    cases hf : s.frefs with
    | none => exact ⟨0, Or.inr ⟨mkExc .tlBase .frefDisabled v (.fref n), s, hs, fun n _ => by simp [M.bind_apply, hf]⟩⟩
    | some fr =>
      cases ht : aget fr n with
      | none => exact ⟨0, Or.inr ⟨mkExc .tlValue (.frefUnknown n) v (.fref n), s, hs, fun n _ => by simp [M.bind_apply, hf, ht]⟩⟩
      | some t' =>
        have hF := hs.bound n t' ⟨fr, hf, ht⟩
        have := Tot.loadWith hcl (hcl.bound n t' hF) (fun h hi => hrec h v t' hi (.fref hF)) (some (.forwardref n)) s hs
        obtain ⟨N, h⟩ := this
        have key : ∀ k, (M.get >>= fun s => match s.frefs with
          | none => M.throw (mkExc .tlBase .frefDisabled v (.fref n))
          | some fr => match aget fr n with
            | none => M.throw (mkExc .tlValue (.frefUnknown n) v (.fref n))
            | some t' => TL.loadWith W C (rec k) v t' (some (.forwardref n)) : L Val) s =
            TL.loadWith W C (rec k) v t' (some (.forwardref n)) s := by
          intro k; simp [M.bind_apply, hf, ht]
        rcases h with ⟨a, s', h1, h2, h3⟩ | ⟨e, s', h1, h3⟩
        · exact ⟨N, Or.inl ⟨a, s', h1, trivial, fun k hk => (key k).trans (h3 k hk)⟩⟩
        · exact ⟨N, Or.inr ⟨e, s', h1, fun k hk => (key k).trans (h3 k hk)⟩⟩
  · exact Tot.throw

include hcl hg hrec in
theorem Tot.newtypeload : Tot W C F (fun n => newtypeload W C (rec n) v t) (fun _ => True) := by
  unfold TL.newtypeload
  split
  · rename_i n t'
    exact Tot.loadWith hcl (hcl.newtype n t' hg) (fun h hi => hrec h v t' hi .newtype) none
  · exact Tot.throw

theorem Tot.script (hcl : Closed W C G F) (p : Script)
    (hp : ∀ x u, p.Asks x u → G u ∧ ∀ h, Installed C h → Tot W C F (fun n => rec n h x u) (fun _ => True)) :
    Tot W C F (fun n => p.run (TL.loadWith W C (rec n))) (fun _ => True) := by
  induction p with
  | ret v => exact Tot.pure trivial
  | raise e => exact Tot.throw
  | call v t a next ih =>
    exact Tot.handle (Tot.loadWith hcl (hp v t .here).1 (hp v t .here).2 a) (fun r _ => ih (.ok r) (fun x u h => hp x u (.later h)))
      (fun e => ih (.error e) (fun x u h => hp x u (.later h)))

include hcl hg hrec in
/-- A handler returns or raises if the handlers it calls do. -/
theorem Tot.step (h : Handler) (hin : Installed C h) : Tot W C F (fun n => TL.step W C (rec n) h v t) (fun _ => True) := by
  have leaf : h.isLeaf = true → Tot W C F (fun n => TL.step W C (rec n) h v t) (fun _ => True) := by
    intro hl
    obtain ⟨o, ho⟩ := leaf_lift (W := W) (C := C) hl v t
    simp only [ho]
    exact Tot.lift (fun _ _ => trivial)
  have objc : ∀ c, t = .obj c → h = objHandler (W.cls c).kind → Tot W C F (fun n => TL.step W C (rec n) h v t) (fun _ => True) := by
    intro c hc hh
    subst hh
    exact Tot.objhandler hrec c hc
  cases h with
  | unionload => exact Tot.unionload hrec
  | enumload => exact Tot.enumload hcl hg hrec
  | tupleload => exact Tot.tupleload hrec
  | listload => exact Tot.iterload hrec _
  | setload => exact Tot.iterload hrec _
  | frozensetload => exact Tot.iterload hrec _
  | dictload => exact Tot.dictload hcl hg hrec
  | forwardrefload => exact Tot.forwardrefload hcl hrec
  | newtypeload => exact Tot.newtypeload hcl hg hrec
  | namedtupleload =>
    cases t with
    | obj c =>
      by_cases hk : (W.cls c).kind = .namedtuple
      · exact objc c rfl (by rw [hk]; rfl)
      · simp only [TL.step, namedtupleload, if_neg hk]; exact Tot.throw
    | _ => exact Tot.throw
  | dataclassload =>
    cases t with
    | obj c =>
      by_cases hk : (W.cls c).kind = .dataclass
      · exact objc c rfl (by rw [hk]; rfl)
      · simp only [TL.step, dataclassload, if_neg hk]; exact Tot.throw
    | _ => exact Tot.throw
  | attrload =>
    cases t with
    | obj c =>
      by_cases hk : (W.cls c).kind = .attrs
      · exact objc c rfl (by rw [hk]; rfl)
      · simp only [TL.step, attrload, if_neg hk]; exact Tot.throw
    | _ => exact Tot.throw
  | typeddictload =>
    cases t with
    | obj c =>
      by_cases hk : (W.cls c).kind = .typeddict
      · exact objc c rfl (by rw [hk]; rfl)
      · simp only [TL.step, typeddictload, if_neg hk]; exact Tot.throw
    | _ => exact Tot.throw
  | custom i => exact Tot.script hcl _ (fun x u ha => ⟨hcl.custom i hin v t hg x u ha, fun h hi => hrec h x u hi (.custom hin ha)⟩)
  | _ => exact leaf rfl
end handlers

/-- The types of the calls are among the types considered. -/
theorem SubCall.closed (hcl : Closed W C G F) {v x : Val} {t u : Ty} (h : SubCall W C F v t x u) (hg : G t) : G u := by
  cases h with
  | elem => exact hcl.coll _ _ hg
  | item _ _ _ hu => exact hcl.tuple _ hg _ hu
  | key => exact hcl.dictKey _ _ hg
  | val => exact hcl.dictVal _ _ hg
  | member _ hu => exact hcl.union _ hg _ hu
  | newtype => exact hcl.newtype _ _ hg
  | hint hu => exact hcl.enum _ hg _ hu
  | field _ hf ht => exact hcl.field _ hg _ hf _ ht
  | fref hF => exact hcl.bound _ _ hF
  | custom hi ha => exact hcl.custom _ hi _ _ hg _ _ ha

/-- A call from which no infinite sequence of calls starts terminates, whatever the handler. -/
theorem Tot.run (hcl : Closed W C G F) {p : Val × Ty} (hacc : Acc (fun q p : Val × Ty => SubCall W C F p.1 p.2 q.1 q.2) p) :
    G p.2 → ∀ h, Installed C h → Tot W C F (fun n => run W C n h p.1 p.2) (fun _ => True) := by
  induction hacc with
  | intro p _ ih =>
    intro hg h hin
    apply Tot.succ
    exact Tot.step hcl hg (fun h x u hi hc => ih (x, u) hc (hc.closed hcl hg) h hi) h hin

end TL
