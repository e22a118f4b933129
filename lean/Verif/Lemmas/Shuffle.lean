import Verif.Spec.Shuffle
import Verif.Lemmas.EvolveObj
/-!
# Lemmas on values that differ in the order of the items of dictionaries
-/

namespace TL

theorem Zip2.of_at {α β : Type} {Q : α → β → Prop} : ∀ {l : List α} {l' : List β}, l.length = l'.length →
    (∀ (i : Nat) (a : α) (b : β), l[i]? = some a → l'[i]? = some b → Q a b) → Zip2 Q l l'
  | [], [], _, _ => .nil
  | [], _ :: _, h, _ => by simp at h
  | _ :: _, [], h, _ => by simp at h
  | a :: l, b :: l', h, hq => .cons (hq 0 a b rfl rfl) (Zip2.of_at (by simpa using h) (fun i x y hx hy => hq (i + 1) x y (by simpa using hx) (by simpa using hy)))

theorem Zip2.refl {α : Type} {Q : α → α → Prop} (h : ∀ a, Q a a) : ∀ l : List α, Zip2 Q l l
  | [] => .nil
  | a :: l => .cons (h a) (Zip2.refl h l)

/-- Items with the same keys and values that are the same up to the order. -/
abbrev ShufItems : List (Val × Val) → List (Val × Val) → Prop := Zip2 (fun p q => p.1 = q.1 ∧ Shuf p.2 q.2)
/-- Fields with the same names and values that are the same up to the order. -/
abbrev ShufArgs : List (String × Val) → List (String × Val) → Prop := Zip2 (fun p q => p.1 = q.1 ∧ Shuf p.2 q.2)

theorem zip_pairs {κ : Type} {Q : Val → Val → Prop} : ∀ {l l' : List (κ × Val)}, l.map (·.1) = l'.map (·.1) →
    (∀ (i : Nat) (p q : κ × Val), l[i]? = some p → l'[i]? = some q → Q p.2 q.2) → Zip2 (fun p q => p.1 = q.1 ∧ Q p.2 q.2) l l'
  | [], [], _, _ => .nil
  | [], _ :: _, h, _ => by simp at h
  | _ :: _, [], h, _ => by simp at h
  | a :: l, b :: l', h, hq => by
    simp only [List.map_cons, List.cons.injEq] at h
    exact .cons ⟨h.1, hq 0 a b rfl rfl⟩ (zip_pairs h.2 (fun i x y hx hy => hq (i + 1) x y (by simpa using hx) (by simpa using hy)))

theorem zip_names {κ : Type} {Q : Val → Val → Prop} {l l' : List (κ × Val)} (h : Zip2 (fun p q => p.1 = q.1 ∧ Q p.2 q.2) l l') :
    l.map (·.1) = l'.map (·.1) := by
  induction h with
  | nil => rfl
  | cons h _ ih => simp only [List.map_cons, h.1, ih]

theorem Shuf.of_zip {k : SeqKind} {xs ys : List Val} (h : Zip2 Shuf xs ys) : Shuf (.seq k xs) (.seq k ys) := .seq h.length_eq h.at
theorem Shuf.of_items {kvs mid kvs' : List (Val × Val)} (h : ShufItems kvs mid) (hp : mid.Perm kvs') : Shuf (.dict kvs) (.dict kvs') :=
  .dict (zip_names h) (fun i p q hp hq => (h.at i p q hp hq).2) hp
theorem Shuf.of_nt {c : Nat} {fs fs' : List (String × Val)} (h : ShufArgs fs fs') : Shuf (.nt c fs) (.nt c fs') :=
  .nt (zip_names h) (fun i p q hp hq => (h.at i p q hp hq).2)
theorem Shuf.of_inst {c : Nat} {fs fs' : List (String × Val)} (h : ShufArgs fs fs') : Shuf (.inst c fs) (.inst c fs') :=
  .inst (zip_names h) (fun i p q hp hq => (h.at i p q hp hq).2)
theorem ShufFields.args {fs fs' : List (String × Val)} (h : ShufFields fs fs') : ShufArgs fs fs' := zip_pairs h.1 h.2
theorem ShufFields.of_args {fs fs' : List (String × Val)} (h : ShufArgs fs fs') : ShufFields fs fs' := ⟨zip_names h, fun i p q hp hq => (h.at i p q hp hq).2⟩

/-- A stronger induction principle. -/
theorem Shuf.ind {P : Val → Val → Prop} (same : ∀ v, P v v) (seq : ∀ k xs ys, Zip2 P xs ys → P (.seq k xs) (.seq k ys))
    (dict : ∀ kvs mid kvs', Zip2 (fun p q : Val × Val => p.1 = q.1 ∧ P p.2 q.2) kvs mid → mid.Perm kvs' → P (.dict kvs) (.dict kvs'))
    (nt : ∀ c fs fs', Zip2 (fun p q : String × Val => p.1 = q.1 ∧ P p.2 q.2) fs fs' → P (.nt c fs) (.nt c fs'))
    (inst : ∀ c fs fs', Zip2 (fun p q : String × Val => p.1 = q.1 ∧ P p.2 q.2) fs fs' → P (.inst c fs) (.inst c fs')) {a b : Val} (h : Shuf a b) : P a b := by
  induction h with
  | same => exact same _
  | seq h1 _ ih => exact seq _ _ _ (.of_at h1 ih)
  | dict h1 _ h2 ih => exact dict _ _ _ (zip_pairs h1 ih) h2
  | nt h1 _ ih => exact nt _ _ _ (zip_pairs h1 ih)
  | inst h1 _ ih => exact inst _ _ _ (zip_pairs h1 ih)

/-! ## Equality -/

theorem pySub_eq_all (xs ys : List Val) : pySub xs ys = xs.all (fun x => ys.any (fun y => pyEq x y)) := by
  induction xs with
  | nil => rfl
  | cons x xs ih => simp only [pySub, List.all_cons, ih]
theorem pySubKV_eq_all (xs ys : List (Val × Val)) : pySubKV xs ys = xs.all (fun x => ys.any (fun y => pyEq x.1 y.1 && pyEq x.2 y.2)) := by
  induction xs with
  | nil => rfl
  | cons x xs ih => simp only [pySubKV, List.all_cons, ih]; congr 2; funext y; obtain ⟨a, b⟩ := x; obtain ⟨c, d⟩ := y; simp only [pyEqP, pyEqS]

theorem all_zip {α β : Type} {f : α → Bool} {g : β → Bool} {l : List α} {l' : List β} (h : Zip2 (fun a b => f a = g b) l l') : l.all f = l'.all g := by
  induction h with
  | nil => rfl
  | cons h _ ih => simp only [List.all_cons, h, ih]
theorem any_zip {α β : Type} {f : α → Bool} {g : β → Bool} {l : List α} {l' : List β} (h : Zip2 (fun a b => f a = g b) l l') : l.any f = l'.any g := by
  induction h with
  | nil => rfl
  | cons h _ ih => simp only [List.any_cons, h, ih]
theorem all_perm {α : Type} {f : α → Bool} {l l' : List α} (h : l.Perm l') : l.all f = l'.all f := by
  rw [Bool.eq_iff_iff, List.all_eq_true, List.all_eq_true]
  exact ⟨fun h' a ha => h' a (h.symm.subset ha), fun h' a ha => h' a (h.subset ha)⟩
theorem any_perm {α : Type} {f : α → Bool} {l l' : List α} (h : l.Perm l') : l.any f = l'.any f := by
  rw [Bool.eq_iff_iff, List.any_eq_true, List.any_eq_true]
  exact ⟨fun ⟨a, ha, h'⟩ => ⟨a, h.subset ha, h'⟩, fun ⟨a, ha, h'⟩ => ⟨a, h.symm.subset ha, h'⟩⟩

theorem pyEqL_zip {xs xs' : List Val} (h : Zip2 (fun a a' => ∀ b, pyEq a b = pyEq a' b) xs xs') : ∀ ys, pyEqL xs ys = pyEqL xs' ys := by
  induction h with
  | nil => intro ys; rfl
  | cons h _ ih => intro ys; cases ys with
    | nil => rfl
    | cons y ys => simp only [pyEqL, h, ih]
theorem pyEqN_zip {xs xs' : List (String × Val)} (h : Zip2 (fun p q : String × Val => p.1 = q.1 ∧ ∀ b, pyEq p.2 b = pyEq q.2 b) xs xs') :
    ∀ ys, pyEqN xs ys = pyEqN xs' ys := by
  induction h with
  | nil => intro ys; rfl
  | @cons p q _ _ h _ ih => intro ys; cases ys with
    | nil => rfl
    | cons y ys => obtain ⟨a, x⟩ := p; obtain ⟨b, z⟩ := q; simp only [pyEqN, pyEqS, ih, h.2 y]

theorem Shuf.pyEq_left {a a' : Val} (h : Shuf a a') : ∀ b, pyEq a b = pyEq a' b := by
  refine Shuf.ind (P := fun a a' => ∀ b, pyEq a b = pyEq a' b) (fun v b => rfl) ?_ ?_ ?_ ?_ h
  · intro k xs ys h b
    have hl := h.length_eq
    have hs : ∀ zs, pySub xs zs = pySub ys zs := by
      intro zs
      rw [pySub_eq_all, pySub_eq_all]
      exact all_zip (h.mono (fun x y hxy => by simp only [hxy]))
    cases b <;> simp only [pyEq, hl, hs, pyEqL_zip h]
  · intro kvs mid kvs' h hp b
    have hl := h.length_eq.trans hp.length_eq
    cases b <;> simp only [pyEq]
    rename_i ks
    rw [hl, pySubKV_eq_all, pySubKV_eq_all, all_zip (g := fun x : Val × Val => ks.any (fun y => pyEq x.1 y.1 && pyEq x.2 y.2))
      (h.mono (fun x y hxy => by simp only [hxy.1, hxy.2])), all_perm hp]
  · intro c fs fs' h b
    cases b <;> simp only [pyEq, pyEqN_zip h]
  · intro c fs fs' h b
    have hn := zip_names (Q := fun x y => ∀ b, pyEq x b = pyEq y b) h
    cases b <;> simp only [pyEq, pyEqN_zip h, hn]

theorem pyEqL_right {ys ys' : List Val} (h : Zip2 (fun b b' => ∀ a, pyEq a b = pyEq a b') ys ys') : ∀ xs, pyEqL xs ys = pyEqL xs ys' := by
  induction h with
  | nil => intro xs; rfl
  | cons h _ ih => intro xs; cases xs with
    | nil => rfl
    | cons x xs => simp only [pyEqL, h, ih]
theorem pyEqN_right {ys ys' : List Val} (h : Zip2 (fun b b' => ∀ a, pyEq a b = pyEq a b') ys ys') : ∀ xs, pyEqN xs ys = pyEqN xs ys' := by
  induction h with
  | nil => intro xs; rfl
  | cons h _ ih => intro xs; cases xs with
    | nil => rfl
    | cons x xs => obtain ⟨n, x⟩ := x; simp only [pyEqN, pyEqS, h, ih]

theorem zip_values {κ : Type} {Q : Val → Val → Prop} {l l' : List (κ × Val)} (h : Zip2 (fun p q => p.1 = q.1 ∧ Q p.2 q.2) l l') :
    Zip2 Q (l.map (·.2)) (l'.map (·.2)) := by
  induction h with
  | nil => exact .nil
  | cons h _ ih => exact .cons h.2 ih

theorem Shuf.pyEq_right {b b' : Val} (h : Shuf b b') : ∀ a, pyEq a b = pyEq a b' := by
  refine Shuf.ind (P := fun b b' => ∀ a, pyEq a b = pyEq a b') (fun v b => rfl) ?_ ?_ ?_ ?_ h
  · intro k xs ys h a
    have hl := h.length_eq
    have hs : ∀ zs, pySub zs xs = pySub zs ys := by
      intro zs
      rw [pySub_eq_all, pySub_eq_all]
      congr 1
      funext z
      exact any_zip (h.mono (fun x y hxy => hxy z))
    cases a <;> simp [pyEq, hl, hs, pyEqL_right h, pyEqN_right h, numKey]
    all_goals rw [beq_eq_false_iff_ne.2 (by simp), beq_eq_false_iff_ne.2 (by simp)]
  · intro kvs mid kvs' h hp a
    have hl := h.length_eq.trans hp.length_eq
    cases a <;> simp [pyEq, numKey]
    all_goals first | done | (rw [beq_eq_false_iff_ne (α := Val) |>.2 (by simp), beq_eq_false_iff_ne (α := Val) |>.2 (by simp)]; done) | skip
    rename_i ks
    rw [hl, pySubKV_eq_all, pySubKV_eq_all]
    congr 2
    funext z
    rw [any_zip (g := fun y : Val × Val => pyEq z.1 y.1 && pyEq z.2 y.2) (h.mono (fun x y hxy => by simp only [hxy.1, hxy.2 z.2])), any_perm hp]
  · intro c fs fs' h a
    cases a <;> simp [pyEq, pyEqN_right (zip_values h), pyEqL_right (zip_values h), numKey]
    all_goals rw [beq_eq_false_iff_ne.2 (by simp), beq_eq_false_iff_ne.2 (by simp)]
  · intro c fs fs' h a
    have hn := zip_names (Q := fun x y => ∀ a, pyEq a x = pyEq a y) h
    cases a <;> simp [pyEq, pyEqN_right (zip_values h), hn, numKey]
    all_goals rw [beq_eq_false_iff_ne.2 (by simp), beq_eq_false_iff_ne.2 (by simp)]

theorem hashableL_zip {hc : Nat → Bool} {xs xs' : List Val} (h : Zip2 (fun a b => hashable hc a = hashable hc b) xs xs') : hashableL hc xs = hashableL hc xs' := by
  induction h with
  | nil => rfl
  | cons h _ ih => simp only [hashableL, h, ih]
theorem hashableN_zip {hc : Nat → Bool} {xs xs' : List (String × Val)} (h : Zip2 (fun p q : String × Val => p.1 = q.1 ∧ hashable hc p.2 = hashable hc q.2) xs xs') :
    hashableN hc xs = hashableN hc xs' := by
  induction h with
  | nil => rfl
  | @cons p q _ _ h _ ih => obtain ⟨a, x⟩ := p; obtain ⟨b, z⟩ := q; simp only [hashableN, hashableS, ih]; rw [h.2]

theorem Shuf.hash {W : World} {a b : Val} (h : Shuf a b) : W.hash a = W.hash b := by
  unfold World.hash
  refine Shuf.ind (P := fun a b => hashable W.hc a = hashable W.hc b) (fun _ => rfl) ?_ ?_ ?_ ?_ h
  · intro k xs ys h; cases k <;> simp only [hashable, hashableL_zip h]
  · intros; rfl
  · intro c fs fs' h; simp only [hashable, hashableN_zip h]
  · intro c fs fs' h; simp only [hashable, hashableN_zip h]

/-! ## Classes, iteration, items -/

theorem Shuf.typeOf {a b : Val} (h : Shuf a b) : TL.typeOf a = TL.typeOf b := by cases h <;> rfl
theorem Shuf.isDict {a b : Val} (h : Shuf a b) : a.isDict = b.isDict := by cases h <;> rfl
theorem Shuf.isInst {a b : Val} (h : Shuf a b) (p : Prim) : TL.isInst p a = TL.isInst p b := by cases h <;> rfl
theorem Shuf.isInstTy {a b : Val} (h : Shuf a b) (t : Ty) : TL.isInstTy t a = TL.isInstTy t b := by
  unfold TL.isInstTy; split
  · exact h.isInst _
  · rfl
theorem Shuf.basic {a b : Val} (h : Shuf a b) {p : Prim} (ha : TL.typeOf a = .prim p) : a = b := by
  cases h <;> first | rfl | (simp [TL.typeOf] at ha)
theorem Shuf.none_iff {a b : Val} (h : Shuf a b) : a = .none ↔ b = .none := by cases h <;> simp
theorem Shuf.enumv {a b : Val} (h : Shuf a b) {e : Nat} {n : String} : a = .enumv e n ↔ b = .enumv e n := by cases h <;> simp
theorem Shuf.pyIn {a b : Val} (h : Shuf a b) (vs : List Val) : TL.pyIn a vs = TL.pyIn b vs := by
  unfold TL.pyIn; congr 1; funext y; exact h.pyEq_right y
theorem pyIn_zip {a b : Val} (h : Shuf a b) {xs ys : List Val} (hz : Zip2 Shuf xs ys) : pyIn a xs = pyIn b ys := by
  rw [h.pyIn]; exact any_zip (hz.mono (fun x y hxy => hxy.pyEq_left b))

theorem Shuf.pyIter {a b : Val} (h : Shuf a b) (hd : a.isDict = false) : (TL.pyIter a = none ∧ TL.pyIter b = none) ∨
    ∃ xs ys, TL.pyIter a = some xs ∧ TL.pyIter b = some ys ∧ Zip2 Shuf xs ys := by
  cases h with
  | same => cases hx : TL.pyIter a with
    | none => exact Or.inl ⟨rfl, rfl⟩
    | some xs => exact Or.inr ⟨xs, xs, rfl, rfl, .refl (fun _ => .same) xs⟩
  | seq h1 h2 => exact Or.inr ⟨_, _, rfl, rfl, .of_at h1 h2⟩
  | dict => simp [Val.isDict] at hd
  | nt h1 h2 => exact Or.inr ⟨_, _, rfl, rfl, zip_values (zip_pairs h1 h2)⟩
  | inst => exact Or.inl ⟨rfl, rfl⟩

theorem Shuf.dictData {C : Config} {a b : Val} (h : Shuf a b) {kvs : List (Val × Val)} (hd : DictData C a kvs) :
    ∃ mid kvs', DictData C b kvs' ∧ ShufItems kvs mid ∧ mid.Perm kvs' := by
  cases h with
  | same => exact ⟨kvs, kvs, hd, .refl (fun _ => ⟨rfl, .same⟩) _, .refl _⟩
  | dict h1 h2 h3 =>
    rcases hd with h | ⟨_, h, _⟩
    · cases h; exact ⟨_, _, Or.inl rfl, zip_pairs h1 h2, h3⟩
    · cases h
  | seq => rcases hd with h | ⟨_, h, _⟩ <;> cases h
  | nt => rcases hd with h | ⟨_, h, _⟩ <;> cases h
  | inst => rcases hd with h | ⟨_, h, _⟩ <;> cases h

theorem Shuf.not_dictData {C : Config} {a b : Val} (h : Shuf a b) (hd : ¬ ∃ kvs, DictData C a kvs) : ¬ ∃ kvs, DictData C b kvs := by
  rintro ⟨kvs, hb⟩
  cases h with
  | same => exact hd ⟨kvs, hb⟩
  | dict h1 h2 h3 => exact hd ⟨_, Or.inl rfl⟩
  | seq => rcases hb with h | ⟨_, h, _⟩ <;> cases h
  | nt => rcases hb with h | ⟨_, h, _⟩ <;> cases h
  | inst => rcases hb with h | ⟨_, h, _⟩ <;> cases h

theorem Shuf.enumCall {W : World} {a b : Val} (h : Shuf a b) {e : Nat} (hm : ∀ a b, Shuf a b → W.missing e a = W.missing e b) : TL.enumCall W e a = TL.enumCall W e b := by
  unfold TL.enumCall
  have h1 : (a ∈ (W.enm e).members.map (fun m => Val.enumv e m.1)) ↔ b ∈ (W.enm e).members.map (fun m => Val.enumv e m.1) := by
    simp only [List.mem_map]
    exact ⟨fun ⟨m, hm, hv⟩ => ⟨m, hm, (h.enumv.1 hv.symm).symm⟩, fun ⟨m, hm, hv⟩ => ⟨m, hm, (h.enumv.2 hv.symm).symm⟩⟩
  by_cases hma : a ∈ (W.enm e).members.map (fun m => Val.enumv e m.1)
  · rw [if_pos hma, if_pos (h1.1 hma)]
    simp only [List.mem_map] at hma
    obtain ⟨m, _, rfl⟩ := hma
    rw [(h.enumv.1 rfl)]
  · rw [if_neg hma, if_neg (fun hb => hma (h1.2 hb))]
    have : (fun m : String × Val => pyEq m.2 a) = fun m => pyEq m.2 b := by funext m; exact h.pyEq_right _
    rw [this, hm _ _ h]

/-- Looking a string up. -/
theorem ShufItems.strKeys {kvs mid : List (Val × Val)} (h : ShufItems kvs mid) : TL.strKeys kvs = TL.strKeys mid := by
  unfold TL.strKeys
  induction h with
  | nil => rfl
  | cons h _ ih => simp only [List.filterMap_cons, h.1, ih]

theorem strKeys_perm {l l' : List (Val × Val)} (h : l.Perm l') : (strKeys l).Perm (strKeys l') := h.filterMap _

end TL
