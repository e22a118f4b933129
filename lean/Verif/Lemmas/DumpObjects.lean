import Verif.Model.DumpObjects
import Verif.Props.Dump
/-!
# The dumper with object identity

It returns the same values as the other one, and the objects in them are new.
-/

namespace TL

set_option linter.unusedSectionVars false

/-- Each address of `[k, k')` occurs at most once, and no other does. -/
def Fresh (k k' : Nat) (l : List Nat) : Prop := ∀ a, l.count a ≤ if k ≤ a ∧ a < k' then 1 else 0

theorem Fresh.nil (k k' : Nat) : Fresh k k' [] := fun a => by simp
theorem Fresh.append {k k1 k2 : Nat} {l l' : List Nat} (h : Fresh k k1 l) (h' : Fresh k1 k2 l') (h1 : k ≤ k1) (h2 : k1 ≤ k2) : Fresh k k2 (l ++ l') := by
  intro a
  have := h a
  have := h' a
  rw [List.count_append]
  split at * <;> split at * <;> split <;> omega
theorem Fresh.perm {k k' : Nat} {l l' : List Nat} (h : Fresh k k' l) (hp : ∀ a, l'.count a ≤ l.count a) : Fresh k k' l' :=
  fun a => Nat.le_trans (hp a) (h a)
theorem Fresh.one (k : Nat) : Fresh k (k + 1) [k] := by
  intro a
  by_cases ha : a = k
  · subst ha; simp
  · rw [List.count_cons_of_ne (fun h => ha h.symm)]; simp
theorem Fresh.cons {k k' : Nat} {l : List Nat} (h : Fresh k k' l) (hk : k ≤ k') : Fresh k (k' + 1) (k' :: l) :=
  (h.append (Fresh.one k') hk (by omega)).perm (fun a => by rw [List.count_append, List.count_cons]; simp [List.count_cons])

theorem Fresh.nodup {k k' : Nat} {l : List Nat} (h : Fresh k k' l) : l.Nodup ∧ ∀ a ∈ l, k ≤ a ∧ a < k' := by
  refine ⟨List.nodup_iff_count.2 (fun a => Nat.le_trans (h a) (by split <;> omega)), fun a ha => ?_⟩
  have := h a
  have := List.count_pos_iff.2 ha
  split at * <;> first | assumption | omega

namespace AVal
theorem eraseL_eq (xs : List AVal) : eraseL xs = xs.map erase := by
  induction xs with
  | nil => rfl
  | cons x xs ih => simp [eraseL, ih]
theorem eraseN_eq (xs : List (String × AVal)) : eraseN xs = xs.map (fun p => (p.1, p.2.erase)) := by
  induction xs with
  | nil => rfl
  | cons x xs ih => simp [eraseN, ih]
theorem eraseKV_eq (xs : List (AVal × AVal)) : eraseKV xs = xs.map (fun p => (p.1.erase, p.2.erase)) := by
  induction xs with
  | nil => rfl
  | cons x xs ih => simp [eraseKV, ih]
theorem aget_eraseN (xs : List (String × AVal)) (n : String) : aget (eraseN xs) n = (aget xs n).map erase := by
  induction xs with
  | nil => rfl
  | cons x xs ih =>
    obtain ⟨m, x⟩ := x
    simp only [eraseN, aget]
    split
    · rfl
    · exact ih
theorem eraseKV_adset (acc : List (AVal × AVal)) (k x : AVal) : eraseKV (adset acc k x) = dset (eraseKV acc) k.erase x.erase := by
  induction acc with
  | nil => rfl
  | cons p acc ih =>
    obtain ⟨k', y⟩ := p
    simp only [adset, eraseKV, dset]
    split
    · rfl
    · simp only [eraseKV, ih]
theorem addrs_adset (acc : List (AVal × AVal)) (k x : AVal) (a : Nat) :
    (addrsKV (adset acc k x)).count a ≤ (addrsKV acc ++ (k.addrs ++ x.addrs)).count a := by
  induction acc with
  | nil => simp [adset, addrsKV]
  | cons p acc ih =>
    obtain ⟨k', y⟩ := p
    simp only [adset]
    split
    · simp only [addrsKV, List.count_append]; omega
    · simp only [addrsKV, List.count_append] at ih ⊢; omega
/-- A value of a basic type has no parts. -/
theorem addrs_prim {x : AVal} {p : Prim} (h : typeOf x.erase = .prim p) : x.addrs = [] := by
  cases x
  case atom => rfl
  case seq a k xs => cases k <;> cases h
  all_goals cases h
end AVal

/-- From address `k` on, `m` does what `m'` does, and returns something related by `Q`. -/
def At {α β : Type} (Q : Nat → α → β → Prop) (m : AD α) (m' : M Unit Exc β) (k : Nat) : Prop :=
  match m k, m' () with
  | .ok a k', .ok b _ => k ≤ k' ∧ Q k' a b
  | .err e _, .err e' _ => e = e'
  | .div, .div => True
  | _, _ => False

section at_
variable {α β γ δ : Type} {Q : Nat → α → β → Prop} {Q' : Nat → γ → δ → Prop} {k : Nat}

theorem At.pure {a : α} {b : β} (h : Q k a b) : At Q (Pure.pure a) (Pure.pure b) k := ⟨Nat.le_refl _, h⟩
theorem At.throw (e : Exc) : At Q (M.throw e) (M.throw e) k := rfl
theorem At.bind {m : AD α} {m' : M Unit Exc β} {f : α → AD γ} {f' : β → M Unit Exc δ} (h : At Q m m' k)
    (hf : ∀ k' a b, k ≤ k' → Q k' a b → At Q' (f a) (f' b) k') : At Q' (m >>= f) (m' >>= f') k := by
  unfold At at h ⊢
  simp only [M.bind_apply]
  cases h1 : m k with
  | ok a k' =>
    cases h2 : m' () with
    | ok b u =>
      rw [h1, h2] at h
      have h3 := hf k' a b h.1 h.2
      unfold At at h3
      dsimp only
      cases h4 : f a k' with
      | ok c k2 =>
        cases h5 : f' b () with
        | ok d u2 => rw [h4, h5] at h3; exact ⟨Nat.le_trans h.1 h3.1, h3.2⟩
        | err e u2 => rw [h4, h5] at h3; exact h3.elim
        | div => rw [h4, h5] at h3; exact h3.elim
      | err e k2 =>
        cases h5 : f' b () with
        | ok d u2 => rw [h4, h5] at h3; exact h3.elim
        | err e u2 => rw [h4, h5] at h3; exact h3
        | div => rw [h4, h5] at h3; exact h3.elim
      | div =>
        cases h5 : f' b () with
        | ok d u2 => rw [h4, h5] at h3; exact h3.elim
        | err e u2 => rw [h4, h5] at h3; exact h3.elim
        | div => trivial
    | err e u => rw [h1, h2] at h; exact h.elim
    | div => rw [h1, h2] at h; exact h.elim
  | err e k' =>
    cases h2 : m' () with
    | ok b u => rw [h1, h2] at h; exact h.elim
    | err e u => rw [h1, h2] at h; exact h
    | div => rw [h1, h2] at h; exact h.elim
  | div =>
    cases h2 : m' () with
    | ok b u => rw [h1, h2] at h; exact h.elim
    | err e u => rw [h1, h2] at h; exact h.elim
    | div => trivial
theorem At.mono {m : AD α} {m' : M Unit Exc β} {Q2 : Nat → α → β → Prop} (h : At Q m m' k) (hq : ∀ k' a b, k ≤ k' → Q k' a b → Q2 k' a b) : At Q2 m m' k := by
  unfold At at h ⊢
  cases h1 : m k <;> cases h2 : m' () <;> rw [h1, h2] at h <;> first | exact h.elim | exact h | exact ⟨h.1, hq _ _ _ h.1 h.2⟩ | trivial
theorem At.alloc {f : Nat → AD γ} {m' : M Unit Exc δ} (h : At Q' (f k) m' (k + 1)) : At Q' (TL.alloc >>= f) m' k := by
  unfold At at h ⊢
  simp only [M.bind_apply, TL.alloc]
  cases h1 : f k (k + 1) <;> cases h2 : m' () <;> rw [h1, h2] at h <;> first | exact h.elim | exact h | exact ⟨by have := h.1; omega, h.2⟩ | trivial
end at_

variable {W : World} {C : DConfig} {O : Objects W} {F : Prop}

/-- The same value; new objects if `F`. -/
def Val.New (F : Prop) (k : Nat) (k' : Nat) (x : AVal) (v : Val) : Prop := x.erase = v ∧ (F → Fresh k k' x.addrs)

section handlers
variable {P : Val → Prop} {rec : ADRec} {rec' : DRec Unit}
  (hrec : ∀ x t k, P x.erase → (F → TruthfulAt C t x.erase) → At (Val.New F k) (rec x t) (rec' x.erase t) k)
include hrec

theorem truthfulAt_any (x : Val) : TruthfulAt C .any x := fun p k xs h => by cases h

theorem At.dumpList (xs : List AVal) : ∀ k, (∀ x ∈ xs, P x.erase) →
    At (fun k' ys vs => AVal.eraseL ys = vs ∧ (F → Fresh k k' (AVal.addrsL ys))) (adumpList rec xs) (dumpList rec' (AVal.eraseL xs)) k := by
  induction xs with
  | nil => intro k _; exact At.pure ⟨rfl, fun _ => Fresh.nil _ _⟩
  | cons x xs ih =>
    intro k hx
    refine At.bind (hrec x .any k (hx x (by simp)) (fun _ => truthfulAt_any hrec _)) (fun k1 y v hk hy => ?_)
    refine At.bind (ih k1 (fun z hz => hx z (by simp [hz]))) (fun k2 ys vs hk2 hys => ?_)
    refine At.pure ⟨?_, fun hF => ?_⟩
    · simp only [AVal.eraseL, hy.1, hys.1]
    · simp only [AVal.addrsL]; exact (hy.2 hF).append (hys.2 hF) hk hk2

theorem At.dumpDict (kvs : List (AVal × AVal)) : ∀ k0 k acc, k0 ≤ k → (F → Fresh k0 k (AVal.addrsKV acc)) → (∀ p ∈ kvs, P p.1.erase ∧ P p.2.erase) →
    At (fun k' ys vs => AVal.eraseKV ys = vs ∧ (F → Fresh k0 k' (AVal.addrsKV ys))) (adumpDict W rec kvs acc) (dumpDict W rec' (AVal.eraseKV kvs) (AVal.eraseKV acc)) k := by
  induction kvs with
  | nil => intro k0 k acc hk hacc _; exact At.pure ⟨rfl, hacc⟩
  | cons p kvs ih =>
    intro k0 k acc hk hacc hx
    obtain ⟨kk, x⟩ := p
    have h0 := hx (kk, x) (by simp)
    refine At.bind (hrec kk .any k h0.1 (fun _ => truthfulAt_any hrec _)) (fun k1 kk' v hk1 hkk => ?_)
    refine At.bind (hrec x .any k1 h0.2 (fun _ => truthfulAt_any hrec _)) (fun k2 x' v' hk2 hx' => ?_)
    obtain ⟨rfl, hkk⟩ := hkk
    obtain ⟨rfl, hx'⟩ := hx'
    by_cases hh : W.hash kk'.erase = true
    · simp only [if_pos hh]
      rw [← AVal.eraseKV_adset]
      refine ih k0 k2 _ (by omega) (fun hF => ?_) (fun q hq => hx q (by simp [hq]))
      exact ((hacc hF).append ((hkk hF).append (hx' hF) hk1 hk2) hk (by omega)).perm (AVal.addrs_adset _ _ _)
    · simp only [if_neg hh]; exact At.throw _

theorem At.dumpNt (defaults : List (String × Val)) (fs : List (String × AVal)) : ∀ k, (∀ p ∈ fs, P p.2.erase) →
    At (fun k' ys vs => AVal.eraseKV ys = vs ∧ (F → Fresh k k' (AVal.addrsKV ys))) (adumpNt C rec defaults fs) (dumpNt C rec' defaults (AVal.eraseN fs)) k := by
  induction fs with
  | nil => intro k _; exact At.pure ⟨rfl, fun _ => Fresh.nil _ _⟩
  | cons p fs ih =>
    intro k hx
    obtain ⟨n, x⟩ := p
    simp only [adumpNt, AVal.eraseN, TL.dumpNt]
    by_cases hb : (C.hidedefault && isDefault defaults n x.erase) = true
    · simp only [if_pos hb]; exact ih k (fun q hq => hx q (by simp [hq]))
    · simp only [if_neg hb]
      refine At.bind (hrec x .any k (hx (n, x) (by simp)) (fun _ => truthfulAt_any hrec _)) (fun k1 y v hk hy => ?_)
      refine At.bind (ih k1 (fun q hq => hx q (by simp [hq]))) (fun k2 ys vs hk2 hys => ?_)
      refine At.pure ⟨?_, fun hF => ?_⟩
      · simp only [AVal.eraseKV, hy.1, hys.1]; rfl
      · simp only [AVal.addrsKV]; exact (hy.2 hF).append (hys.2 hF) hk hk2

theorem At.dumpFields (cd : ClassDef) (defaults : List (String × Val)) (hints : List (String × Ty)) (vals : List (String × AVal))
    (hx : ∀ n x, aget vals n = some x → P x.erase ∧ (F → TruthfulAt C ((aget hints n).getD .any) x.erase)) (fs : List String) :
    ∀ k0 k acc, k0 ≤ k → (F → Fresh k0 k (AVal.addrsKV acc)) →
    At (fun k' ys vs => AVal.eraseKV ys = vs ∧ (F → Fresh k0 k' (AVal.addrsKV ys))) (adumpFields C rec cd defaults hints vals fs acc)
      (dumpFields W C rec' cd defaults hints (AVal.eraseN vals) fs (AVal.eraseKV acc)) k := by
  induction fs with
  | nil => intro k0 k acc hk hacc; exact At.pure ⟨rfl, hacc⟩
  | cons f fs ih =>
    intro k0 k acc hk hacc
    simp only [adumpFields, TL.dumpFields, AVal.aget_eraseN]
    cases hg : aget vals f with
    | none => exact At.throw _
    | some x =>
      simp only [Option.map_some]
      by_cases hb : (C.hidedefault && isDefault defaults f x.erase) = true
      · simp only [if_pos hb]; exact ih k0 k acc hk hacc
      · simp only [if_neg hb]
        refine At.bind (hrec x _ k (hx f x hg).1 (hx f x hg).2) (fun k1 y v hk1 hy => ?_)
        obtain ⟨rfl, hy⟩ := hy
        have := ih k0 k1 (adset acc (.str (dumpName C cd f)) y) (by omega)
          (fun hF => ((hacc hF).append (hy hF) hk hk1).perm (AVal.addrs_adset _ _ _))
        rw [AVal.eraseKV_adset] at this
        exact this

theorem At.dumpAttrs (vals : List (String × AVal)) (hx : ∀ n x, aget vals n = some x → P x.erase) (fs : List Field) :
    ∀ k0 k acc, k0 ≤ k → (F → Fresh k0 k (AVal.addrsKV acc)) →
    At (fun k' ys vs => AVal.eraseKV ys = vs ∧ (F → Fresh k0 k' (AVal.addrsKV ys))) (adumpAttrs C rec vals fs acc)
      (dumpAttrs C rec' (AVal.eraseN vals) fs (AVal.eraseKV acc)) k := by
  induction fs with
  | nil => intro k0 k acc hk hacc; exact At.pure ⟨rfl, hacc⟩
  | cons f fs ih =>
    intro k0 k acc hk hacc
    simp only [adumpAttrs, TL.dumpAttrs, AVal.aget_eraseN]
    cases hg : aget vals f.name with
    | none => exact At.throw _
    | some x =>
      simp only [Option.map_some]
      cases hr : f.repr with
      | false => exact ih k0 k acc hk hacc
      | true =>
        simp only [Bool.not_true, Bool.false_eq_true, if_false]
        have step : At (fun k' ys vs => AVal.eraseKV ys = vs ∧ (F → Fresh k0 k' (AVal.addrsKV ys)))
            (do let y ← rec x .any; adumpAttrs C rec vals fs (adset acc (.str ((aget f.metadata C.mangleKey).getD f.name)) y))
            (do let y ← rec' x.erase .any; TL.dumpAttrs C rec' (AVal.eraseN vals) fs (dset (AVal.eraseKV acc) (.str ((aget f.metadata C.mangleKey).getD f.name)) y)) k := by
          refine At.bind (hrec x .any k (hx _ x hg) (fun _ => truthfulAt_any hrec _)) (fun k1 y v hk1 hy => ?_)
          obtain ⟨rfl, hy⟩ := hy
          have := ih k0 k1 (adset acc (.str ((aget f.metadata C.mangleKey).getD f.name)) y) (by omega)
            (fun hF => ((hacc hF).append (hy hF) hk hk1).perm (AVal.addrs_adset _ _ _))
          rw [AVal.eraseKV_adset] at this
          exact this
        cases f.default with
        | none => simpa using step
        | some d =>
          by_cases hb : (C.hidedefault && pyEq x.erase d) = true
          · simp only [if_pos hb]; exact ih k0 k acc hk hacc
          · simp only [if_neg hb]; exact step
end handlers

theorem At.ints (F : Prop) (is : List Int) (k : Nat) : At (Val.New F k) (aints is) (Pure.pure (.list (is.map .int))) k := by
  unfold aints
  refine At.alloc (At.pure ⟨?_, fun _ => ?_⟩)
  · simp [AVal.erase, AVal.eraseL_eq, Function.comp_def]
  · have : AVal.addrsL (is.map (fun i => AVal.atom (.int i) rfl)) = [] := by
      induction is with
      | nil => rfl
      | cons i is ih => simp [AVal.addrsL, AVal.addrs, ih]
    simp only [AVal.addrs, this]
    exact Fresh.one k

theorem AVal.atom_of {x : AVal} (h : x.erase.isAtom = true) : ∃ h', x = .atom x.erase h' := by
  cases x
  case atom v h => exact ⟨h, rfl⟩
  all_goals (simp [AVal.erase, Val.isAtom] at h)

theorem at_dump (hd : C.Default) {v : Val} (hl : Legal W v) (hF : F → Truthful W C v) (n : Nat) : ∀ x t k, Inside W v x.erase →
    (F → TruthfulAt C t x.erase) → At (Val.New F k) (adump W C O n x t) (Ref.dump W C n x.erase t) k := by
  induction n with
  | zero => intro x t k _ _; trivial
  | succ n ih =>
    intro x t k hx hta
    unfold adump Ref.dump
    rw [dPick_eq hd]
    unfold dHandlerOf
    by_cases hb : C.isBasic (typeOf x.erase) = true
    · rw [if_pos hb]
      obtain ⟨p, h1, h2⟩ := dconfig_isBasic hb
      exact At.pure ⟨rfl, fun _ => by rw [AVal.addrs_prim h1]; exact Fresh.nil _ _⟩
    rw [if_neg hb]
    have atom : ∀ {v : Val} (h : v.isAtom = true), At (Val.New F k) (Pure.pure (AVal.atom v h)) (Pure.pure v) k := fun h => At.pure ⟨rfl, fun _ => Fresh.nil _ _⟩
    have any : ∀ x, F → TruthfulAt C .any x := fun x _ => truthfulAt_any (rec := adump W C O n) ih x
    cases x with
    | seq a sk xs =>
      simp only [AVal.erase]
      unfold adstep dstep
      dsimp only
      unfold aiteratordump iteratordump
      cases hc : (C.isBasic (iterItemTy t) && (C.handlers.head?.map (·.2) == some .identity)) with
      | true =>
        simp only [if_true]
        obtain ⟨p, hp1, hp2⟩ := iterItemTy_basic (by simp at hc; exact hc.1)
        refine At.alloc (At.pure ⟨rfl, fun f => ?_⟩)
        have hta := hta f p sk (AVal.eraseL xs) hp1 hp2 rfl
        have : AVal.addrsL xs = [] := by
          clear hx hb
          induction xs with
          | nil => rfl
          | cons y ys ihy =>
            obtain ⟨q, hq, _⟩ := hta y.erase (by simp [AVal.eraseL])
            have h2 := ihy (fun _ => fun p' k' xs' h1 h2 h3 z hz => by
              cases h3; exact hta z (by simp [AVal.eraseL, hz])) (fun z hz => hta z (by simp [AVal.eraseL, hz]))
            simp [AVal.addrsL, AVal.addrs_prim hq, h2]
        simp only [aiterContents, AVal.addrs, this]
        exact Fresh.one k
      | false =>
        simp only [Bool.false_eq_true, if_false]
        refine At.bind (At.dumpList (P := Inside W v) ih xs k (fun y hy => ?_)) (fun k1 ys vs hk hys => ?_)
        · exact .elem hx (by rw [AVal.eraseL_eq]; exact List.mem_map.2 ⟨y, hy, rfl⟩)
        · refine At.alloc (At.pure ⟨?_, fun f => ?_⟩)
          · simp only [AVal.erase, hys.1]
          · simp only [AVal.addrs]; exact (hys.2 f).cons hk
    | dict a kvs =>
      simp only [AVal.erase]
      unfold adstep dstep
      dsimp only
      refine At.bind (At.dumpDict (P := Inside W v) (W := W) ih kvs k k [] (Nat.le_refl _) (fun _ => Fresh.nil _ _) (fun p hp => ?_)) (fun k1 ys vs hk hys => ?_)
      · have hm : (p.1.erase, p.2.erase) ∈ AVal.eraseKV kvs := by rw [AVal.eraseKV_eq]; exact List.mem_map.2 ⟨p, hp, rfl⟩
        exact ⟨.key hx hm, .val hx hm⟩
      · refine At.alloc (At.pure ⟨?_, fun f => ?_⟩)
        · simp only [AVal.erase, hys.1]
        · simp only [AVal.addrs]; exact (hys.2 f).cons hk
    | ns a fs => simp only [AVal.erase]; exact At.throw _
    | nt a c fs =>
      simp only [AVal.erase]
      unfold adstep dstep
      dsimp only
      refine At.bind (At.dumpNt (P := Inside W v) ih _ fs k (fun p hp => ?_)) (fun k1 ys vs hk hys => ?_)
      · exact .item (n := p.1) hx (by rw [AVal.eraseN_eq]; exact List.mem_map.2 ⟨p, hp, rfl⟩)
      · refine At.alloc (At.pure ⟨?_, fun f => ?_⟩)
        · simp only [AVal.erase, hys.1]
        · simp only [AVal.addrs]; exact (hys.2 f).cons hk
    | inst a c fs =>
      simp only [AVal.erase]
      have hin : ∀ n x, aget fs n = some x → (n, x.erase) ∈ AVal.eraseN fs := fun n x h => by
        rw [AVal.eraseN_eq]; exact List.mem_map.2 ⟨(n, x), aget_mem h, rfl⟩
      cases hk : (W.cls c).kind with
      | dataclass =>
        unfold adstep dstep
        dsimp only
        rw [show ∀ (f : DataDesc → M Unit Exc Val), (Pure.pure (mkDataDesc W (W.cls c)) >>= f) = f (mkDataDesc W (W.cls c)) from fun f => rfl]
        refine At.bind (At.dumpFields (P := Inside W v) (W := W) ih _ _ _ fs (fun f x hf => ⟨.attr hx (hin _ _ hf), fun hf' => ?_⟩) _ k k [] (Nat.le_refl _)
          (fun _ => Fresh.nil _ _)) (fun k1 ys vs hk hys => ?_)
        · cases hg : aget (mkDataDesc W (W.cls c)).hints f with
          | none => exact any _ hf'
          | some ft =>
            obtain ⟨g, hg1, rfl, rfl⟩ := aget_hints hg
            exact hF hf' c _ hx hk g hg1 _ (hin _ _ hf)
        · refine At.alloc (At.pure ⟨?_, fun f => ?_⟩)
          · simp only [AVal.erase, hys.1]
          · simp only [AVal.addrs]; exact (hys.2 f).cons hk
      | attrs =>
        unfold adstep dstep
        dsimp only
        refine At.bind (At.dumpAttrs (P := Inside W v) ih fs (fun f x hf => .attr hx (hin _ _ hf)) _ k k [] (Nat.le_refl _)
          (fun _ => Fresh.nil _ _)) (fun k1 ys vs hk hys => ?_)
        refine At.alloc (At.pure ⟨?_, fun f => ?_⟩)
        · simp only [AVal.erase, hys.1]
        · simp only [AVal.addrs]; exact (hys.2 f).cons hk
      | namedtuple => exact At.throw _
      | typeddict => exact At.throw _
    | atom y hy =>
      simp only [AVal.erase] at hx hta ⊢
      cases y <;> first | (simp [Val.isAtom] at hy; done) | skip
      case enumv e m =>
        unfold adstep dstep
        simp only [AVal.erase]
        cases hm : aget (W.enm e).members m with
        | none => exact At.throw _
        | some z =>
          have he := O.member_erase e m z hm
          have := ih (O.member e m) .any k (by rw [he]; exact .member hx hm) (any _)
          rw [he] at this
          exact this
      case date a b c =>
        unfold adstep dstep
        simp only [adatetimedump, datetimedump, AVal.erase]
        by_cases hi : C.isodates = true
        · simp only [if_pos hi]; exact atom _
        · simp only [if_neg hi]; exact At.ints F [a, b, c] k
      case time a b c d tz =>
        unfold adstep dstep
        simp only [adatetimedump, datetimedump, AVal.erase]
        by_cases hi : C.isodates = true
        · simp only [if_pos hi]; exact atom _
        · simp only [if_neg hi]
          cases tz with
          | some z => exact At.throw _
          | none => exact At.ints F [a, b, c, d] k
      case datetime a b c d e f g tz =>
        unfold adstep dstep
        simp only [adatetimedump, datetimedump, AVal.erase]
        by_cases hi : C.isodates = true
        · simp only [if_pos hi]; exact atom _
        · simp only [if_neg hi]
          cases tz with
          | some z => exact At.throw _
          | none => exact At.ints F [a, b, c, d, e, f, g] k
      case timedelta us => exact atom _
      case pattern src =>
        have : src.isAtom = true := by
          have := hl _ hx
          cases src <;> first | rfl | (exfalso; rcases this with h | h <;> cases h; done) | skip
          all_goals (rename_i k _; exfalso; rcases this with h | h <;> cases k <;> cases h)
        unfold adstep dstep
        simp only [AVal.erase, dif_pos this]
        exact atom _
      case strobj c s =>
        by_cases hc : C.strconstructed.contains c = true
        · simp only [if_pos hc]; exact atom _
        · simp only [if_neg hc]; exact At.throw _
      all_goals exact At.throw _

end TL
