import Verif.Model.LoadObjects
import Verif.Lemmas.DumpObjects
import Verif.Lemmas.Sem
import Verif.Props.Terminates
import Verif.Props.Discriminator
/-!
# The loader with object identity: memory, and combinators
-/

namespace TL

set_option linter.unusedSectionVars false

/-! ## Addresses -/

theorem Fresh.new {k k' : Nat} {l : List Nat} (h : Fresh (k + 1) k' l) (hk : k + 1 ≤ k') : Fresh k k' (k :: l) :=
  ((Fresh.one k).append h (by omega) hk)
theorem Fresh.mono {k1 k2 k k' : Nat} {l : List Nat} (h : Fresh k k' l) (h1 : k1 ≤ k) (h2 : k' ≤ k2) : Fresh k1 k2 l := by
  intro a
  have := h a
  split at * <;> split <;> omega

/-- Every address of `l` is in `S` or new (in `[k, k')`); if `F`, all are new and distinct. -/
structure Own (F : Prop) (S : Nat → Prop) (k k' : Nat) (l : List Nat) : Prop where
  src : ∀ a ∈ l, S a ∨ (k ≤ a ∧ a < k')
  fresh : F → Fresh k k' l

section own
variable {F : Prop} {S : Nat → Prop} {k k' k1 k2 : Nat} {l l' : List Nat}

theorem Own.nil : Own F S k k' [] := ⟨fun _ h => (by cases h), fun _ => Fresh.nil _ _⟩
theorem Own.append (h : Own F S k k1 l) (h' : Own F S k1 k2 l') (h1 : k ≤ k1) (h2 : k1 ≤ k2) : Own F S k k2 (l ++ l') :=
  ⟨fun a ha => by
    rcases List.mem_append.1 ha with ha | ha
    · exact (h.src a ha).imp id (fun h => ⟨h.1, by omega⟩)
    · exact (h'.src a ha).imp id (fun h => ⟨by omega, h.2⟩), fun hF => (h.fresh hF).append (h'.fresh hF) h1 h2⟩
theorem Own.perm (h : Own F S k k' l) (hp : ∀ a, l'.count a ≤ l.count a) : Own F S k k' l' :=
  ⟨fun a ha => h.src a (List.count_pos_iff.1 (Nat.lt_of_lt_of_le (List.count_pos_iff.2 ha) (hp a))), fun hF => (h.fresh hF).perm hp⟩
theorem Own.new (h : Own F S (k + 1) k' l) (hk : k + 1 ≤ k') : Own F S k k' (k :: l) :=
  ⟨fun a ha => by
    rcases List.mem_cons.1 ha with rfl | ha
    · exact .inr ⟨Nat.le_refl _, hk⟩
    · exact (h.src a ha).imp id (fun h => ⟨by omega, h.2⟩), fun hF => (h.fresh hF).new hk⟩
theorem Own.mono (h : Own F S k k' l) (h1 : k1 ≤ k) (h2 : k' ≤ k2) : Own F S k1 k2 l :=
  ⟨fun a ha => (h.src a ha).imp id (fun h => ⟨by omega, by omega⟩), fun hF => (h.fresh hF).mono h1 h2⟩
/-- Parts of what was there before. -/
theorem Own.old (h : ∀ a ∈ l, S a) (hF : F → l = []) : Own F S k k' l := ⟨fun a ha => .inl (h a ha), fun h => by rw [hF h]; exact Fresh.nil _ _⟩
end own

namespace AVal

/-- Everything in `l` is new. -/
def Made (k k' : Nat) (l : List Nat) : Prop := k ≤ k' ∧ Fresh k k' l

mutual
theorem build_spec : ∀ (v : Val) (k : Nat), (build v k).1.erase = v ∧ Made k (build v k).2 (build v k).1.addrs
  | .seq s xs, k => by
    have h := buildL_spec xs (k + 1)
    refine ⟨?_, ?_, ?_⟩
    · simp only [build, erase, h.1]
    · have := h.2.1; simp only [build]; omega
    · simp only [build, addrs]; exact h.2.2.new h.2.1
  | .dict kvs, k => by
    have h := buildKV_spec kvs (k + 1)
    refine ⟨?_, ?_, ?_⟩
    · simp only [build, erase, h.1]
    · have := h.2.1; simp only [build]; omega
    · simp only [build, addrs]; exact h.2.2.new h.2.1
  | .ns fs, k => by
    have h := buildN_spec fs (k + 1)
    refine ⟨?_, ?_, ?_⟩
    · simp only [build, erase, h.1]
    · have := h.2.1; simp only [build]; omega
    · simp only [build, addrs]; exact h.2.2.new h.2.1
  | .nt c fs, k => by
    have h := buildN_spec fs (k + 1)
    refine ⟨?_, ?_, ?_⟩
    · simp only [build, erase, h.1]
    · have := h.2.1; simp only [build]; omega
    · simp only [build, addrs]; exact h.2.2.new h.2.1
  | .inst c fs, k => by
    have h := buildN_spec fs (k + 1)
    refine ⟨?_, ?_, ?_⟩
    · simp only [build, erase, h.1]
    · have := h.2.1; simp only [build]; omega
    · simp only [build, addrs]; exact h.2.2.new h.2.1
  | .none, k => ⟨rfl, Nat.le_refl _, Fresh.nil _ _⟩
  | .bool _, k => ⟨rfl, Nat.le_refl _, Fresh.nil _ _⟩
  | .int _, k => ⟨rfl, Nat.le_refl _, Fresh.nil _ _⟩
  | .float _, k => ⟨rfl, Nat.le_refl _, Fresh.nil _ _⟩
  | .str _, k => ⟨rfl, Nat.le_refl _, Fresh.nil _ _⟩
  | .bytes _, k => ⟨rfl, Nat.le_refl _, Fresh.nil _ _⟩
  | .enumv _ _, k => ⟨rfl, Nat.le_refl _, Fresh.nil _ _⟩
  | .date _ _ _, k => ⟨rfl, Nat.le_refl _, Fresh.nil _ _⟩
  | .time _ _ _ _ _, k => ⟨rfl, Nat.le_refl _, Fresh.nil _ _⟩
  | .datetime _ _ _ _ _ _ _ _, k => ⟨rfl, Nat.le_refl _, Fresh.nil _ _⟩
  | .timedelta _, k => ⟨rfl, Nat.le_refl _, Fresh.nil _ _⟩
  | .pattern _, k => ⟨rfl, Nat.le_refl _, Fresh.nil _ _⟩
  | .strobj _ _, k => ⟨rfl, Nat.le_refl _, Fresh.nil _ _⟩
  | .opaque _ _, k => ⟨rfl, Nat.le_refl _, Fresh.nil _ _⟩
theorem buildL_spec : ∀ (xs : List Val) (k : Nat), eraseL (buildL xs k).1 = xs ∧ Made k (buildL xs k).2 (addrsL (buildL xs k).1)
  | [], k => ⟨rfl, Nat.le_refl _, Fresh.nil _ _⟩
  | x :: xs, k => by
    have h := build_spec x k
    have h' := buildL_spec xs (build x k).2
    refine ⟨?_, ?_, ?_⟩
    · simp only [buildL, eraseL, h.1, h'.1]
    · exact Nat.le_trans h.2.1 h'.2.1
    · exact h.2.2.append h'.2.2 h.2.1 h'.2.1
theorem buildKV_spec : ∀ (xs : List (Val × Val)) (k : Nat), eraseKV (buildKV xs k).1 = xs ∧ Made k (buildKV xs k).2 (addrsKV (buildKV xs k).1)
  | [], k => ⟨rfl, Nat.le_refl _, Fresh.nil _ _⟩
  | (a, x) :: xs, k => by
    have h0 := build_spec a k
    have h := build_spec x (build a k).2
    have h' := buildKV_spec xs (build x (build a k).2).2
    refine ⟨?_, ?_, ?_⟩
    · simp only [buildKV, eraseKV, h0.1, h.1, h'.1]
    · exact Nat.le_trans h0.2.1 (Nat.le_trans h.2.1 h'.2.1)
    · exact h0.2.2.append (h.2.2.append h'.2.2 h.2.1 h'.2.1) h0.2.1 (Nat.le_trans h.2.1 h'.2.1)
theorem buildN_spec : ∀ (xs : List (String × Val)) (k : Nat), eraseN (buildN xs k).1 = xs ∧ Made k (buildN xs k).2 (addrsN (buildN xs k).1)
  | [], k => ⟨rfl, Nat.le_refl _, Fresh.nil _ _⟩
  | (n, x) :: xs, k => by
    have h := build_spec x k
    have h' := buildN_spec xs (build x k).2
    refine ⟨?_, ?_, ?_⟩
    · simp only [buildN, eraseN, h.1, h'.1]
    · exact Nat.le_trans h.2.1 h'.2.1
    · exact h.2.2.append h'.2.2 h.2.1 h'.2.1
end

theorem Made.own {F : Prop} {S : Nat → Prop} {k k' : Nat} {l : List Nat} (h : Made k k' l) : Own F S k k' l :=
  ⟨fun a ha => .inr (h.2.nodup.2 a ha), fun _ => h.2⟩

theorem ofAtom_erase {v : Val} (h : v.isAtom = true) : (ofAtom v).erase = v := by simp [ofAtom, h, erase]
theorem ofAtom_addrs (v : Val) : (ofAtom v).addrs = [] := by
  unfold ofAtom; split <;> rfl
theorem addrs_of_atom {x : AVal} (h : x.erase.isAtom = true) : x.addrs = [] := by
  cases x with
  | atom => rfl
  | _ => cases h

theorem mem_addrsL {xs : List AVal} {x : AVal} (h : x ∈ xs) {a : Nat} (ha : a ∈ x.addrs) : a ∈ addrsL xs := by
  induction xs with
  | nil => cases h
  | cons y ys ih =>
    simp only [addrsL, List.mem_append]
    rcases List.mem_cons.1 h with rfl | h
    · exact .inl ha
    · exact .inr (ih h)
theorem mem_addrsKV {xs : List (AVal × AVal)} {p : AVal × AVal} (h : p ∈ xs) {a : Nat} (ha : a ∈ p.1.addrs ∨ a ∈ p.2.addrs) : a ∈ addrsKV xs := by
  induction xs with
  | nil => cases h
  | cons y ys ih =>
    obtain ⟨y1, y2⟩ := y
    simp only [addrsKV, List.mem_append]
    rcases List.mem_cons.1 h with rfl | h
    · exact ha.imp id (fun h => .inl h)
    · exact .inr (.inr (ih h))
theorem mem_addrsN {xs : List (String × AVal)} {p : String × AVal} (h : p ∈ xs) {a : Nat} (ha : a ∈ p.2.addrs) : a ∈ addrsN xs := by
  induction xs with
  | nil => cases h
  | cons y ys ih =>
    obtain ⟨y1, y2⟩ := y
    simp only [addrsN, List.mem_append]
    rcases List.mem_cons.1 h with rfl | h
    · exact .inl ha
    · exact .inr (ih h)
theorem addrsL_append (xs ys : List AVal) : addrsL (xs ++ ys) = addrsL xs ++ addrsL ys := by
  induction xs with
  | nil => rfl
  | cons x xs ih => simp [addrsL, ih]
theorem addrsN_append (xs ys : List (String × AVal)) : addrsN (xs ++ ys) = addrsN xs ++ addrsN ys := by
  induction xs with
  | nil => rfl
  | cons x xs ih => simp [addrsN, ih]
theorem eraseL_append (xs ys : List AVal) : eraseL (xs ++ ys) = eraseL xs ++ eraseL ys := by simp [eraseL_eq]
theorem eraseN_append (xs ys : List (String × AVal)) : eraseN (xs ++ ys) = eraseN xs ++ eraseN ys := by simp [eraseN_eq]
theorem eraseN_aset (acc : List (String × AVal)) (n : String) (x : AVal) : eraseN (aset acc n x) = aset (eraseN acc) n x.erase := by
  induction acc with
  | nil => rfl
  | cons p acc ih =>
    obtain ⟨m, y⟩ := p
    simp only [aset, eraseN]
    split <;> simp only [eraseN, ih]
theorem addrs_aset (acc : List (String × AVal)) (n : String) (x : AVal) (a : Nat) : (addrsN (aset acc n x)).count a ≤ (addrsN acc ++ x.addrs).count a := by
  induction acc with
  | nil => simp [aset, addrsN]
  | cons p acc ih =>
    obtain ⟨m, y⟩ := p
    simp only [aset]
    split <;> simp only [addrsN, List.count_append] at ih ⊢ <;> omega
theorem eraseKV_strs (fs : List (String × AVal)) : eraseKV (fs.map (fun p => (.str p.1, p.2))) = (eraseN fs).map (fun p => (.str p.1, p.2)) := by
  induction fs with
  | nil => rfl
  | cons p fs ih => obtain ⟨n, x⟩ := p; simp only [List.map_cons, eraseKV, eraseN, ih]; rfl
theorem addrsKV_strs (fs : List (String × AVal)) : addrsKV (fs.map (fun p => (.str p.1, p.2))) = addrsN fs := by
  induction fs with
  | nil => rfl
  | cons p fs ih => obtain ⟨n, x⟩ := p; simp only [List.map_cons, addrsKV, addrsN, ih]; rfl
theorem isAtom_isDict {v : Val} (h : v.isAtom = true) : ∀ kvs, v ≠ .dict kvs := by rintro kvs rfl; cases h
end AVal

/-- The elements of an atom are atoms. -/
theorem pyIter_atom {v : Val} (h : v.isAtom = true) {xs : List Val} (hx : pyIter v = some xs) : ∀ x ∈ xs, x.isAtom = true := by
  cases v <;> simp [Val.isAtom] at h <;> simp [pyIter] at hx <;> subst hx <;> simp <;> intros <;> subst_vars <;> rfl

theorem apyIter_erase (x : AVal) : pyIter x.erase = (apyIter x).map AVal.eraseL := by
  cases x with
  | atom v h =>
    simp only [AVal.erase, apyIter]
    cases hx : pyIter v with
    | none => rfl
    | some xs =>
      simp only [Option.map_some, AVal.eraseL_eq, List.map_map]
      congr 1
      have := pyIter_atom h hx
      clear hx
      induction xs with
      | nil => rfl
      | cons y ys ih =>
        simp only [List.map_cons, Function.comp]
        rw [AVal.ofAtom_erase (this y (by simp)), ← ih (fun z hz => this z (by simp [hz]))]
  | seq a k xs => rfl
  | dict a kvs => simp [AVal.erase, pyIter, apyIter, AVal.eraseL_eq, AVal.eraseKV_eq]
  | ns => rfl
  | nt a c fs => simp [AVal.erase, pyIter, apyIter, AVal.eraseL_eq, AVal.eraseN_eq]
  | inst => rfl

theorem apyIter_addrs {x : AVal} {xs : List AVal} (h : apyIter x = some xs) {y : AVal} (hy : y ∈ xs) {a : Nat} (ha : a ∈ y.addrs) : a ∈ x.addrs := by
  cases x with
  | atom v hv =>
    simp only [apyIter, Option.map_eq_some_iff] at h
    obtain ⟨vs, _, rfl⟩ := h
    obtain ⟨z, _, rfl⟩ := List.mem_map.1 hy
    rw [AVal.ofAtom_addrs] at ha; cases ha
  | seq => cases h; exact List.mem_cons_of_mem _ (AVal.mem_addrsL hy ha)
  | dict b kvs =>
    cases h
    obtain ⟨p, hp, rfl⟩ := List.mem_map.1 hy
    exact List.mem_cons_of_mem _ (AVal.mem_addrsKV hp (.inl ha))
  | ns => cases h
  | nt b c fs =>
    cases h
    obtain ⟨p, hp, rfl⟩ := List.mem_map.1 hy
    exact List.mem_cons_of_mem _ (AVal.mem_addrsN hp ha)
  | inst => cases h

/-! ## Simulation -/

section sim
variable (W : World) (C : Config) (Bd : String → Ty → Prop) (b : Nat)

/-- Between two memories: addresses are only taken, only objects from `b` on are written to, and the caches are right. -/
structure Kept (σ σ' : AMem) : Prop where
  next : σ.next ≤ σ'.next
  log : ∃ ws, σ'.log = ws ++ σ.log ∧ ∀ w ∈ ws, b ≤ w
  good : Good W C Bd σ'.ls

/-- From `σ`, `m` does what `m'` does from the caches of `σ`, and returns something related by `Q`. -/
def ASim {α β : Type} (Q : Nat → α → β → Prop) (m : AL α) (m' : L β) (σ : AMem) : Prop :=
  match m σ, m' σ.ls with
  | .ok a σ', .ok r s' => σ'.ls = s' ∧ Kept W C Bd b σ σ' ∧ Q σ'.next a r
  | .err e σ', .err e' s' => e = e' ∧ σ'.ls = s' ∧ Kept W C Bd b σ σ'
  | .div, .div => True
  | _, _ => False
end sim

section simlemmas
variable {W : World} {C : Config} {Bd : String → Ty → Prop} {b : Nat}
variable {α β γ δ : Type} {Q : Nat → α → β → Prop} {Q' : Nat → γ → δ → Prop} {σ : AMem}

theorem Kept.refl (h : Good W C Bd σ.ls) : Kept W C Bd b σ σ := ⟨Nat.le_refl _, ⟨[], rfl, fun _ h => (by cases h)⟩, h⟩
theorem Kept.trans {σ1 σ2 σ3 : AMem} (h : Kept W C Bd b σ1 σ2) (h' : Kept W C Bd b σ2 σ3) : Kept W C Bd b σ1 σ3 := by
  obtain ⟨ws, h1, h2⟩ := h.log
  obtain ⟨ws', h3, h4⟩ := h'.log
  refine ⟨Nat.le_trans h.next h'.next, ⟨ws' ++ ws, by rw [h3, h1, List.append_assoc], fun w hw => ?_⟩, h'.good⟩
  rcases List.mem_append.1 hw with hw | hw
  · exact h4 w hw
  · exact h2 w hw

/-- The outcomes of a simulation. -/
inductive ASimRes (W : World) (C : Config) (Bd : String → Ty → Prop) (b : Nat) (Q : Nat → α → β → Prop) (σ : AMem) :
    Res AMem Exc α → Res LState Exc β → Prop
  | ok {a r σ'} : Kept W C Bd b σ σ' → Q σ'.next a r → ASimRes W C Bd b Q σ (.ok a σ') (.ok r σ'.ls)
  | err {e σ'} : Kept W C Bd b σ σ' → ASimRes W C Bd b Q σ (.err e σ') (.err e σ'.ls)
  | div : ASimRes W C Bd b Q σ .div .div

theorem asim_iff {m : AL α} {m' : L β} : ASim W C Bd b Q m m' σ ↔ ASimRes W C Bd b Q σ (m σ) (m' σ.ls) := by
  unfold ASim
  constructor
  · intro h
    cases h1 : m σ <;> cases h2 : m' σ.ls <;> rw [h1, h2] at h <;> first | exact h.elim | skip
    · obtain ⟨rfl, h3, h4⟩ := h; exact .ok h3 h4
    · obtain ⟨rfl, rfl, h3⟩ := h; exact .err h3
    · exact .div
  · intro h
    generalize m σ = x at h
    generalize m' σ.ls = y at h
    cases h with
    | ok h1 h2 => exact ⟨rfl, h1, h2⟩
    | err h1 => exact ⟨rfl, rfl, h1⟩
    | div => trivial

theorem ASim.pure {a : α} {r : β} (hg : Good W C Bd σ.ls) (h : Q σ.next a r) : ASim W C Bd b Q (Pure.pure a) (Pure.pure r) σ := asim_iff.2 (.ok (.refl hg) h)
theorem ASim.throw (hg : Good W C Bd σ.ls) (e : Exc) : ASim W C Bd b Q (M.throw e) (M.throw e) σ := asim_iff.2 (.err (.refl hg))
theorem ASim.bind {m : AL α} {m' : L β} {f : α → AL γ} {f' : β → L δ} (h : ASim W C Bd b Q m m' σ)
    (hf : ∀ σ' a r, Kept W C Bd b σ σ' → Q σ'.next a r → ASim W C Bd b Q' (f a) (f' r) σ') : ASim W C Bd b Q' (m >>= f) (m' >>= f') σ := by
  rw [asim_iff] at h ⊢
  rw [M.bind_apply, M.bind_apply]
  generalize m σ = x at h
  generalize m' σ.ls = y at h
  cases h with
  | ok h1 h2 =>
    rename_i a r σ1
    have h3 := asim_iff.1 (hf σ1 a r h1 h2)
    dsimp only
    generalize f a σ1 = x at h3
    generalize f' r σ1.ls = y at h3
    cases h3 with
    | ok h4 h5 => exact .ok (h1.trans h4) h5
    | err h4 => exact .err (h1.trans h4)
    | div => exact .div
  | err h1 => exact .err h1
  | div => exact .div
/-- A step that the other loader does not have, or does not see. -/
theorem ASim.bindPure {m : AL α} {r : β} {f : α → AL γ} {m' : L δ} (h : ASim W C Bd b Q m (Pure.pure r) σ)
    (hf : ∀ σ' a, Kept W C Bd b σ σ' → σ'.ls = σ.ls → Q σ'.next a r → ASim W C Bd b Q' (f a) m' σ') : ASim W C Bd b Q' (m >>= f) m' σ := by
  rw [asim_iff] at h ⊢
  rw [M.bind_apply]
  rw [M.pure_apply] at h
  generalize hy : (Res.ok r σ.ls : Res LState Exc β) = y at h
  generalize m σ = x at h
  cases h with
  | ok h1 h2 =>
    rename_i a r' σ1
    injection hy with hr hls
    subst hr
    have h3 := asim_iff.1 (hf σ1 a h1 hls.symm h2)
    dsimp only
    rw [hls]
    generalize f a σ1 = x at h3
    generalize m' σ1.ls = y at h3
    cases h3 with
    | ok h4 h5 => exact .ok (h1.trans h4) h5
    | err h4 => exact .err (h1.trans h4)
    | div => exact .div
  | err h1 => cases hy
  | div => cases hy
theorem ASim.rescue {m : AL α} {m' : L β} {f : Exc → AL α} {f' : Exc → L β} (h : ASim W C Bd b Q m m' σ)
    (hf : ∀ σ' e, Kept W C Bd b σ σ' → ASim W C Bd b Q (f e) (f' e) σ') : ASim W C Bd b Q (M.rescue m f) (M.rescue m' f') σ := by
  rw [asim_iff] at h ⊢
  rw [M.catch_apply, M.catch_apply]
  generalize m σ = x at h
  generalize m' σ.ls = y at h
  cases h with
  | ok h1 h2 => exact .ok h1 h2
  | err h1 =>
    rename_i e σ1
    have h3 := asim_iff.1 (hf σ1 e h1)
    dsimp only
    generalize f e σ1 = x at h3
    generalize f' e σ1.ls = y at h3
    cases h3 with
    | ok h4 h5 => exact .ok (h1.trans h4) h5
    | err h4 => exact .err (h1.trans h4)
    | div => exact .div
  | div => exact .div
theorem ASim.handle {m : AL α} {m' : L β} {f : α → AL γ} {f' : β → L δ} {g : Exc → AL γ} {g' : Exc → L δ} (h : ASim W C Bd b Q m m' σ)
    (hf : ∀ σ' a r, Kept W C Bd b σ σ' → Q σ'.next a r → ASim W C Bd b Q' (f a) (f' r) σ')
    (hg : ∀ σ' e, Kept W C Bd b σ σ' → ASim W C Bd b Q' (g e) (g' e) σ') : ASim W C Bd b Q' (M.handle m f g) (M.handle m' f' g') σ := by
  rw [asim_iff] at h ⊢
  rw [M.handle_apply, M.handle_apply]
  generalize m σ = x at h
  generalize m' σ.ls = y at h
  cases h with
  | ok h1 h2 =>
    rename_i a r σ1
    have h3 := asim_iff.1 (hf σ1 a r h1 h2)
    dsimp only
    generalize f a σ1 = x at h3
    generalize f' r σ1.ls = y at h3
    cases h3 with
    | ok h4 h5 => exact .ok (h1.trans h4) h5
    | err h4 => exact .err (h1.trans h4)
    | div => exact .div
  | err h1 =>
    rename_i e σ1
    have h3 := asim_iff.1 (hg σ1 e h1)
    dsimp only
    generalize g e σ1 = x at h3
    generalize g' e σ1.ls = y at h3
    cases h3 with
    | ok h4 h5 => exact .ok (h1.trans h4) h5
    | err h4 => exact .err (h1.trans h4)
    | div => exact .div
  | div => exact .div
theorem ASim.mono {m : AL α} {m' : L β} {Q2 : Nat → α → β → Prop} (h : ASim W C Bd b Q m m' σ) (hq : ∀ k' a r, σ.next ≤ k' → Q k' a r → Q2 k' a r) :
    ASim W C Bd b Q2 m m' σ := by
  rw [asim_iff] at h ⊢
  generalize m σ = x at h ⊢
  generalize m' σ.ls = y at h ⊢
  cases h with
  | ok h1 h2 => exact .ok h1 (hq _ _ _ h1.next h2)
  | err h1 => exact .err h1
  | div => exact .div
theorem ASim.lift {m : L α} {R : Except Exc α → Prop} (hs : Good W C Bd σ.ls) (h : Sat W C Bd m R) :
    ASim W C Bd b (fun _ a r => a = r ∧ R (.ok r)) (alift m) m σ := by
  have := h σ.ls hs
  unfold Post at this
  unfold ASim alift
  cases hm : m σ.ls with
  | ok a s => rw [hm] at this; exact ⟨rfl, ⟨Nat.le_refl _, ⟨[], rfl, fun _ h => (by cases h)⟩, this.1⟩, rfl, this.2⟩
  | err e s => rw [hm] at this; exact ⟨rfl, rfl, Nat.le_refl _, ⟨[], rfl, fun _ h => (by cases h)⟩, this.1⟩
  | div => trivial
theorem ASim.new (hg : Good W C Bd σ.ls) : ASim W C Bd b (fun k' a (_ : Unit) => a = σ.next ∧ k' = σ.next + 1) anew (Pure.pure ()) σ :=
  ⟨rfl, ⟨Nat.le_succ _, ⟨[], rfl, fun _ h => (by cases h)⟩, hg⟩, rfl, rfl⟩
theorem ASim.write (hg : Good W C Bd σ.ls) {a : Nat} (ha : b ≤ a) : ASim W C Bd b (fun k' _ (_ : Unit) => k' = σ.next) (awrite a) (Pure.pure ()) σ :=
  ⟨rfl, ⟨Nat.le_refl _, ⟨[a], rfl, fun w h => by simp at h; subst h; exact ha⟩, hg⟩, rfl⟩
theorem ASim.newVal (hg : Good W C Bd σ.ls) (v : Val) {F : Prop} {S : Nat → Prop} :
    ASim W C Bd b (fun k' y r => y.erase = r ∧ Own F S σ.next k' y.addrs) (anewVal v) (Pure.pure v) σ := by
  have := AVal.build_spec v σ.next
  exact ⟨rfl, ⟨this.2.1, ⟨[], rfl, fun _ h => (by cases h)⟩, hg⟩, this.1, this.2.own⟩
end simlemmas

end TL
