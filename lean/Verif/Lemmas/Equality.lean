import Verif.Spec.Equality
import Verif.Lemmas.DumpCoh
import Mathlib.Data.List.Perm.Subperm
/-!
# `pyEq` decides `Equal`
-/

namespace TL

variable {W : World}

/-! ## `Equal` is symmetric and transitive -/

theorem Equal.symm {v w : Val} (h : Equal v w) : Equal w v := by
  induction h with
  | single h => exact .single h
  | num h1 h2 => exact .num h2 h1
  | @list v w l h1 h2 _ ih =>
    refine .list (l := l.map Prod.swap) (by simp [h2, Function.comp_def]) (by simp [h1, Function.comp_def]) ?_
    intro q hq; obtain ⟨p, hp, rfl⟩ := List.mem_map.1 hq; exact ih p hp
  | @tuple v w l h1 h2 _ ih =>
    refine .tuple (l := l.map Prod.swap) (by simpa [Function.comp_def] using h2) (by simpa [Function.comp_def] using h1) ?_
    intro q hq; obtain ⟨p, hp, rfl⟩ := List.mem_map.1 hq; exact ih p hp
  | @set v w xs ys l h1 h2 h3 h4 _ ih =>
    refine .set (l := l.map Prod.swap) h2 h1 (by simpa using h4) (by simpa using h3) ?_
    intro q hq; obtain ⟨p, hp, rfl⟩ := List.mem_map.1 hq; exact ih p hp
  | @dict v w xs ys l h1 h2 h3 h4 _ _ ih ih' =>
    refine .dict (l := l.map Prod.swap) h2 h1 (fun p => (h4 p).trans ?_) (fun p => (h3 p).trans ?_) ?_ ?_
    · constructor
      · rintro ⟨q, hq, rfl⟩; exact ⟨q.swap, List.mem_map_of_mem hq, rfl⟩
      · rintro ⟨q, hq, rfl⟩; obtain ⟨p, hp, rfl⟩ := List.mem_map.1 hq; exact ⟨p, hp, rfl⟩
    · constructor
      · rintro ⟨q, hq, rfl⟩; exact ⟨q.swap, List.mem_map_of_mem hq, rfl⟩
      · rintro ⟨q, hq, rfl⟩; obtain ⟨p, hp, rfl⟩ := List.mem_map.1 hq; exact ⟨p, hp, rfl⟩
    · intro q hq; obtain ⟨p, hp, rfl⟩ := List.mem_map.1 hq; exact ih p hp
    · intro q hq; obtain ⟨p, hp, rfl⟩ := List.mem_map.1 hq; exact ih' p hp
  | @ns v w xs ys l h1 h2 h3 h4 _ ih =>
    refine .ns (l := l.map (fun q => (q.1, q.2.swap))) h2 h1 (fun p => (h4 p).trans ?_) (fun p => (h3 p).trans ?_) ?_
    · constructor
      · rintro ⟨q, hq, rfl⟩; exact ⟨(q.1, q.2.swap), List.mem_map_of_mem (f := fun q => (q.1, q.2.swap)) hq, rfl⟩
      · rintro ⟨q, hq, rfl⟩; obtain ⟨p, hp, rfl⟩ := List.mem_map.1 hq; exact ⟨p, hp, rfl⟩
    · constructor
      · rintro ⟨q, hq, rfl⟩; exact ⟨(q.1, q.2.swap), List.mem_map_of_mem (f := fun q => (q.1, q.2.swap)) hq, rfl⟩
      · rintro ⟨q, hq, rfl⟩; obtain ⟨p, hp, rfl⟩ := List.mem_map.1 hq; exact ⟨p, hp, rfl⟩
    · intro q hq; obtain ⟨p, hp, rfl⟩ := List.mem_map.1 hq; exact ih p hp
  | @inst v w c l h1 h2 _ ih =>
    refine .inst (c := c) (l := l.map (fun q => (q.1, q.2.swap))) (by simp [h2, Function.comp_def]) (by simp [h1, Function.comp_def]) ?_
    intro q hq; obtain ⟨p, hp, rfl⟩ := List.mem_map.1 hq; exact ih p hp
  | pattern _ ih => exact .pattern ih

theorem NumIs.unique {v : Val} {x y : PF} (h : NumIs v x) (h' : NumIs v y) : x = y := by
  cases h <;> cases h' <;> rfl
theorem TupleItems.unique {v : Val} {xs ys : List Val} (h : TupleItems v xs) (h' : TupleItems v ys) : xs = ys := by
  cases h <;> cases h' <;> rfl
theorem SetItems.unique {v : Val} {xs ys : List Val} (h : SetItems v xs) (h' : SetItems v ys) : xs = ys := by
  cases h <;> cases h' <;> rfl

theorem pairs_comp {α β γ : Type} {l : List (α × β)} {m : List (β × γ)} (h : l.map (·.2) = m.map (·.1)) :
    ∃ n : List (α × γ), n.map (·.1) = l.map (·.1) ∧ n.map (·.2) = m.map (·.2) ∧ ∀ q ∈ n, ∃ b, (q.1, b) ∈ l ∧ (b, q.2) ∈ m := by
  induction l generalizing m with
  | nil => cases m with
    | nil => exact ⟨[], rfl, rfl, by simp⟩
    | cons _ _ => cases h
  | cons p l ih => cases m with
    | nil => cases h
    | cons p' m =>
      simp only [List.map_cons, List.cons.injEq] at h
      obtain ⟨n, h1, h2, h3⟩ := ih h.2
      refine ⟨(p.1, p'.2) :: n, by simp [h1], by simp [h2], ?_⟩
      intro q hq
      rcases List.mem_cons.1 hq with rfl | hq
      · refine ⟨p.2, List.mem_cons_self, ?_⟩
        rw [h.1]; exact List.mem_cons_self
      · obtain ⟨b, h4, h5⟩ := h3 q hq
        exact ⟨b, List.mem_cons_of_mem _ h4, List.mem_cons_of_mem _ h5⟩

/-- All pairs `(a, c)` such that `l` has `(a, b)` and `m` has `(b, c)`. -/
theorem exists_comp {α β γ : Type} (l : List (α × β)) (m : List (β × γ)) :
    ∃ n : List (α × γ), ∀ q : α × γ, q ∈ n ↔ ∃ b, (q.1, b) ∈ l ∧ (b, q.2) ∈ m := by
  classical
  refine ⟨l.flatMap (fun p => (m.filter (fun p' => decide (p.2 = p'.1))).map (fun p' => (p.1, p'.2))), ?_⟩
  intro q
  simp only [List.mem_flatMap, List.mem_map, List.mem_filter, decide_eq_true_eq]
  constructor
  · rintro ⟨p, hp, p', ⟨hp', he⟩, rfl⟩
    exact ⟨p.2, hp, by rw [he]; exact hp'⟩
  · rintro ⟨b, h1, h2⟩
    exact ⟨_, h1, _, ⟨h2, rfl⟩, rfl⟩


theorem Equal.num_inv {v w : Val} {x : PF} (hv : NumIs v x) (h : Equal v w) : NumIs w x := by
  cases h with
  | num h1 h2 => rw [hv.unique h1]; exact h2
  | single h => exact hv
  | list h => subst h; cases hv
  | tuple h => cases hv <;> cases h
  | set h => cases h <;> cases hv
  | dict h => subst h; cases hv
  | ns h => subst h; cases hv
  | inst h => subst h; cases hv
  | pattern h => cases hv
theorem Equal.single_inv {v w : Val} (hv : Single v) (h : Equal v w) : w = v := by
  cases h with
  | num h1 h2 => cases h1 <;> cases hv
  | single h => rfl
  | list h => subst h; cases hv
  | tuple h => cases hv <;> cases h
  | set h => cases h <;> cases hv
  | dict h => subst h; cases hv
  | ns h => subst h; cases hv
  | inst h => subst h; cases hv
  | pattern h => cases hv
theorem Equal.list_inv {xs : List Val} {w : Val} (h : Equal (.list xs) w) :
    ∃ l : List (Val × Val), xs = l.map (·.1) ∧ w = .list (l.map (·.2)) ∧ ∀ q ∈ l, Equal q.1 q.2 := by
  cases h with
  | num h1 h2 => cases h1
  | single h => cases h
  | list h h2 h3 => cases h; exact ⟨_, rfl, h2, h3⟩
  | tuple h => cases h
  | set h => cases h
  | dict h => cases h
  | ns h => cases h
  | inst h => cases h
theorem Equal.tuple_inv {v w : Val} {xs : List Val} (hv : TupleItems v xs) (h : Equal v w) :
    ∃ l : List (Val × Val), xs = l.map (·.1) ∧ TupleItems w (l.map (·.2)) ∧ ∀ q ∈ l, Equal q.1 q.2 := by
  cases h with
  | num h1 h2 => cases h1 <;> cases hv
  | single h => cases h <;> cases hv
  | list h => subst h; cases hv
  | tuple h h2 h3 => exact ⟨_, hv.unique h, h2, h3⟩
  | set h => cases h <;> cases hv
  | dict h => subst h; cases hv
  | ns h => subst h; cases hv
  | inst h => subst h; cases hv
  | pattern h => cases hv
theorem Equal.set_inv {v w : Val} {xs : List Val} (hv : SetItems v xs) (h : Equal v w) :
    ∃ (l : List (Val × Val)) (ys : List Val), SetItems w ys ∧ (∀ x, x ∈ xs ↔ ∃ q ∈ l, x = q.1) ∧ (∀ y, y ∈ ys ↔ ∃ q ∈ l, y = q.2) ∧ ∀ q ∈ l, Equal q.1 q.2 := by
  cases h with
  | num h1 h2 => cases h1 <;> cases hv
  | single h => cases h <;> cases hv
  | list h => subst h; cases hv
  | tuple h => cases hv <;> cases h
  | set h h2 h3 h4 h5 => rw [hv.unique h]; exact ⟨_, _, h2, h3, h4, h5⟩
  | dict h => subst h; cases hv
  | ns h => subst h; cases hv
  | inst h => subst h; cases hv
  | pattern h => cases hv
theorem Equal.dict_inv {kvs : List (Val × Val)} {w : Val} (h : Equal (.dict kvs) w) :
    ∃ (l : List ((Val × Val) × (Val × Val))) (kvs' : List (Val × Val)), w = .dict kvs' ∧ (∀ p, p ∈ kvs ↔ ∃ q ∈ l, p = q.1) ∧ (∀ p, p ∈ kvs' ↔ ∃ q ∈ l, p = q.2) ∧
      (∀ q ∈ l, Equal q.1.1 q.2.1) ∧ ∀ q ∈ l, Equal q.1.2 q.2.2 := by
  cases h with
  | num h1 h2 => cases h1
  | single h => cases h
  | list h => cases h
  | tuple h => cases h
  | set h => cases h
  | dict h h2 h3 h4 h5 h6 => cases h; exact ⟨_, _, h2, h3, h4, h5, h6⟩
  | ns h => cases h
  | inst h => cases h
theorem Equal.ns_inv {kvs : List (String × Val)} {w : Val} (h : Equal (.ns kvs) w) :
    ∃ (l : List (String × Val × Val)) (kvs' : List (String × Val)), w = .ns kvs' ∧ (∀ p, p ∈ kvs ↔ ∃ q ∈ l, p = (q.1, q.2.1)) ∧
      (∀ p, p ∈ kvs' ↔ ∃ q ∈ l, p = (q.1, q.2.2)) ∧ ∀ q ∈ l, Equal q.2.1 q.2.2 := by
  cases h with
  | num h1 h2 => cases h1
  | single h => cases h
  | list h => cases h
  | tuple h => cases h
  | set h => cases h
  | dict h => cases h
  | ns h h2 h3 h4 h5 => cases h; exact ⟨_, _, h2, h3, h4, h5⟩
  | inst h => cases h
theorem Equal.inst_inv {c : Nat} {fs : List (String × Val)} {w : Val} (h : Equal (.inst c fs) w) :
    ∃ l : List (String × Val × Val), fs = l.map (fun q => (q.1, q.2.1)) ∧ w = .inst c (l.map (fun q => (q.1, q.2.2))) ∧ ∀ q ∈ l, Equal q.2.1 q.2.2 := by
  cases h with
  | num h1 h2 => cases h1
  | single h => cases h
  | list h => cases h
  | tuple h => cases h
  | set h => cases h
  | dict h => cases h
  | ns h => cases h
  | inst h h2 h3 => cases h; exact ⟨_, rfl, h2, h3⟩
theorem Equal.pattern_inv {s w : Val} (h : Equal (.pattern s) w) : ∃ s', w = .pattern s' ∧ Equal s s' := by
  cases h with
  | num h1 h2 => cases h1
  | single h => cases h
  | list h => cases h
  | tuple h => cases h
  | set h => cases h
  | dict h => cases h
  | ns h => cases h
  | inst h => cases h
  | pattern h => exact ⟨_, rfl, h⟩

theorem Equal.trans {u v w : Val} (h : Equal u v) (h' : Equal v w) : Equal u w := by
  induction h generalizing w with
  | single _ => exact h'
  | num h1 h2 => exact .num h1 (h'.num_inv h2)
  | @list _ _ l h1 h2 _ ih =>
    subst h2
    obtain ⟨m, h3, h4, h5⟩ := h'.list_inv
    obtain ⟨n, h6, h7, h8⟩ := pairs_comp h3
    refine .list (l := n) (h6 ▸ h1) (h7 ▸ h4) ?_
    intro q hq; obtain ⟨b, hb, hb'⟩ := h8 q hq; exact ih _ hb (h5 _ hb')
  | @tuple _ _ l h1 h2 _ ih =>
    obtain ⟨m, h3, h4, h5⟩ := h'.tuple_inv h2
    obtain ⟨n, h6, h7, h8⟩ := pairs_comp h3
    refine .tuple (l := n) (h6 ▸ h1) (h7 ▸ h4) ?_
    intro q hq; obtain ⟨b, hb, hb'⟩ := h8 q hq; exact ih _ hb (h5 _ hb')
  | @set _ _ xs ys l h1 h2 h3 h4 _ ih =>
    obtain ⟨m, zs, h5, h6, h7, h8⟩ := h'.set_inv h2
    obtain ⟨n, hn⟩ := exists_comp l m
    refine .set (l := n) h1 h5 (fun x => ?_) (fun x => ?_) ?_
    · rw [h3]
      constructor
      · rintro ⟨q, hq, rfl⟩
        obtain ⟨q', hq', he⟩ := (h6 q.2).1 ((h4 _).2 ⟨q, hq, rfl⟩)
        exact ⟨(q.1, q'.2), (hn _).2 ⟨q.2, hq, he ▸ hq'⟩, rfl⟩
      · rintro ⟨q, hq, rfl⟩
        obtain ⟨b, hb, _⟩ := (hn _).1 hq
        exact ⟨_, hb, rfl⟩
    · rw [h7]
      constructor
      · rintro ⟨q, hq, rfl⟩
        obtain ⟨q', hq', he⟩ := (h4 q.1).1 ((h6 _).2 ⟨q, hq, rfl⟩)
        exact ⟨(q'.1, q.2), (hn _).2 ⟨q.1, he ▸ hq', hq⟩, rfl⟩
      · rintro ⟨q, hq, rfl⟩
        obtain ⟨b, _, hb⟩ := (hn _).1 hq
        exact ⟨_, hb, rfl⟩
    · intro q hq; obtain ⟨b, hb, hb'⟩ := (hn _).1 hq; exact ih _ hb (h8 _ hb')
  | @dict _ _ xs ys l h1 h2 h3 h4 _ _ ih ih' =>
    subst h2
    obtain ⟨m, zs, h5, h6, h7, h8, h9⟩ := h'.dict_inv
    obtain ⟨n, hn⟩ := exists_comp l m
    refine .dict (l := n) h1 h5 (fun x => ?_) (fun x => ?_) ?_ ?_
    · rw [h3]
      constructor
      · rintro ⟨q, hq, rfl⟩
        obtain ⟨q', hq', he⟩ := (h6 q.2).1 ((h4 _).2 ⟨q, hq, rfl⟩)
        exact ⟨(q.1, q'.2), (hn _).2 ⟨q.2, hq, he ▸ hq'⟩, rfl⟩
      · rintro ⟨q, hq, rfl⟩
        obtain ⟨b, hb, _⟩ := (hn _).1 hq
        exact ⟨_, hb, rfl⟩
    · rw [h7]
      constructor
      · rintro ⟨q, hq, rfl⟩
        obtain ⟨q', hq', he⟩ := (h4 q.1).1 ((h6 _).2 ⟨q, hq, rfl⟩)
        exact ⟨(q'.1, q.2), (hn _).2 ⟨q.1, he ▸ hq', hq⟩, rfl⟩
      · rintro ⟨q, hq, rfl⟩
        obtain ⟨b, _, hb⟩ := (hn _).1 hq
        exact ⟨_, hb, rfl⟩
    · intro q hq; obtain ⟨b, hb, hb'⟩ := (hn _).1 hq; exact ih _ hb (h8 _ hb')
    · intro q hq; obtain ⟨b, hb, hb'⟩ := (hn _).1 hq; exact ih' _ hb (h9 _ hb')
  | @ns _ _ xs ys l h1 h2 h3 h4 _ ih =>
    subst h2
    obtain ⟨m, zs, h5, h6, h7, h8⟩ := h'.ns_inv
    obtain ⟨n, hn⟩ := exists_comp (l.map (fun q => ((q.1, q.2.1), (q.1, q.2.2)))) (m.map (fun q => ((q.1, q.2.1), (q.1, q.2.2))))
    have hname : ∀ q ∈ n, q.1.1 = q.2.1 := by
      intro q hq
      obtain ⟨b, hb, hb'⟩ := (hn _).1 hq
      obtain ⟨a, _, ha⟩ := List.mem_map.1 hb
      obtain ⟨a', _, ha'⟩ := List.mem_map.1 hb'
      have e1 := congrArg (fun q => q.1.1) ha
      have e2 := congrArg (fun q => q.2.1) ha
      have e3 := congrArg (fun q => q.1.1) ha'
      have e4 := congrArg (fun q => q.2.1) ha'
      dsimp only at e1 e2 e3 e4
      rw [← e1, e2, ← e3, e4]
    have hmem : ∀ a x y, (a, x, y) ∈ n.map (fun q => (q.1.1, q.1.2, q.2.2)) ↔ ∃ b, (a, x, b) ∈ l ∧ (a, b, y) ∈ m := by
      intro a x y
      constructor
      · intro h
        obtain ⟨q, hq, he⟩ := List.mem_map.1 h
        cases he
        obtain ⟨b, hb, hb'⟩ := (hn _).1 hq
        obtain ⟨c, hc, he⟩ := List.mem_map.1 hb
        obtain ⟨c', hc', he'⟩ := List.mem_map.1 hb'
        rw [Prod.mk.injEq] at he he'
        have e1 := congrArg Prod.fst he.1; have e2 := congrArg Prod.snd he.1
        have e3 := congrArg Prod.fst he.2; have e4 := congrArg Prod.snd he.2
        have f1 := congrArg Prod.fst he'.1; have f2 := congrArg Prod.snd he'.1
        have f3 := congrArg Prod.fst he'.2; have f4 := congrArg Prod.snd he'.2
        dsimp only at e1 e2 e3 e4 f1 f2 f3 f4
        refine ⟨b.2, ?_, ?_⟩
        · rw [← e1, ← e2, ← e4]; exact hc
        · rw [← e1, e3, ← f1, ← f2, ← f4]; exact hc'
      · rintro ⟨b, h1, h2⟩
        exact List.mem_map.2 ⟨((a, x), (a, y)), (hn _).2 ⟨(a, b), List.mem_map.2 ⟨_, h1, rfl⟩, List.mem_map.2 ⟨_, h2, rfl⟩⟩, rfl⟩
    refine .ns (l := n.map (fun q => (q.1.1, q.1.2, q.2.2))) h1 h5 (fun x => ?_) (fun x => ?_) ?_
    · rw [h3]
      constructor
      · rintro ⟨q, hq, rfl⟩
        obtain ⟨q', hq', he⟩ := (h6 _).1 ((h4 _).2 ⟨q, hq, rfl⟩)
        rw [Prod.mk.injEq] at he
        exact ⟨(q.1, q.2.1, q'.2.2), (hmem _ _ _).2 ⟨q.2.2, hq, by rw [he.1, he.2]; exact hq'⟩, rfl⟩
      · rintro ⟨q, hq, rfl⟩
        obtain ⟨b, hb, _⟩ := (hmem _ _ _).1 hq
        exact ⟨_, hb, rfl⟩
    · rw [h7]
      constructor
      · rintro ⟨q, hq, rfl⟩
        obtain ⟨q', hq', he⟩ := (h4 _).1 ((h6 _).2 ⟨q, hq, rfl⟩)
        rw [Prod.mk.injEq] at he
        exact ⟨(q.1, q'.2.1, q.2.2), (hmem _ _ _).2 ⟨q.2.1, by rw [he.1, he.2]; exact hq', hq⟩, rfl⟩
      · rintro ⟨q, hq, rfl⟩
        obtain ⟨b, _, hb⟩ := (hmem _ _ _).1 hq
        exact ⟨_, hb, rfl⟩
    · intro q hq; obtain ⟨b, hb, hb'⟩ := (hmem _ _ _).1 hq; exact ih _ hb (h8 _ hb')
  | @inst _ _ c l h1 h2 _ ih =>
    subst h2
    obtain ⟨m, h3, h4, h5⟩ := h'.inst_inv
    have h3' : (l.map (fun q => ((q.1, q.2.1), (q.1, q.2.2)))).map (·.2) = (m.map (fun q => ((q.1, q.2.1), (q.1, q.2.2)))).map (·.1) := by
      simpa [Function.comp_def] using h3
    obtain ⟨n, h6, h7, h8⟩ := pairs_comp h3'
    have hq : ∀ q ∈ n, q.1.1 = q.2.1 ∧ ∃ b, (q.1.1, q.1.2, b) ∈ l ∧ (q.1.1, b, q.2.2) ∈ m := by
      intro q hq
      obtain ⟨b, hb, hb'⟩ := h8 q hq
      obtain ⟨d, hc, he⟩ := List.mem_map.1 hb
      obtain ⟨d', hc', he'⟩ := List.mem_map.1 hb'
      rw [Prod.mk.injEq] at he he'
      have e1 := congrArg Prod.fst he.1; have e2 := congrArg Prod.snd he.1
      have e3 := congrArg Prod.fst he.2; have e4 := congrArg Prod.snd he.2
      have f1 := congrArg Prod.fst he'.1; have f2 := congrArg Prod.snd he'.1
      have f3 := congrArg Prod.fst he'.2; have f4 := congrArg Prod.snd he'.2
      dsimp only at e1 e2 e3 e4 f1 f2 f3 f4
      refine ⟨?_, b.2, ?_, ?_⟩
      · rw [← e1, e3, ← f1, f3]
      · rw [← e1, ← e2, ← e4]; exact hc
      · rw [← e1, e3, ← f1, ← f2, ← f4]; exact hc'
    refine .inst (c := c) (l := n.map (fun q => (q.1.1, q.1.2, q.2.2))) ?_ ?_ ?_
    · rw [h1]; congr 1
      have : l.map (fun q => (q.1, q.2.1)) = (l.map (fun q => ((q.1, q.2.1), (q.1, q.2.2)))).map (·.1) := by simp [Function.comp_def]
      rw [this, ← h6]; simp [Function.comp_def]
    · rw [h4]; congr 1
      have : m.map (fun q => (q.1, q.2.2)) = (m.map (fun q => ((q.1, q.2.1), (q.1, q.2.2)))).map (·.2) := by simp [Function.comp_def]
      rw [this, ← h7, List.map_map]
      refine List.map_congr_left (fun q h => ?_)
      simp only [Function.comp_def]
      rw [(hq q h).1]
    · intro q h
      obtain ⟨q', h', rfl⟩ := List.mem_map.1 h
      obtain ⟨_, b, hb, hb'⟩ := hq q' h'
      exact ih _ hb (h5 _ hb')
  | pattern _ ih =>
    obtain ⟨s', rfl, h⟩ := h'.pattern_inv
    exact .pattern (ih h)

/-! ## `pyEq` -/

theorem pyEqL_iff {xs ys : List Val} : pyEqL xs ys = true ↔ ∃ l : List (Val × Val), xs = l.map (·.1) ∧ ys = l.map (·.2) ∧ ∀ q ∈ l, pyEq q.1 q.2 = true := by
  induction xs generalizing ys with
  | nil =>
    cases ys with
    | nil => exact ⟨fun _ => ⟨[], rfl, rfl, by simp⟩, fun _ => rfl⟩
    | cons y ys => exact ⟨(by simp [pyEqL]), by rintro ⟨l, h1, h2, _⟩; cases l <;> [cases h2; cases h1]⟩
  | cons x xs ih =>
    cases ys with
    | nil => exact ⟨(by simp [pyEqL]), by rintro ⟨l, h1, h2, _⟩; cases l <;> [cases h1; cases h2]⟩
    | cons y ys =>
      simp only [pyEqL, Bool.and_eq_true, ih]
      constructor
      · rintro ⟨h, l, rfl, rfl, hl⟩
        exact ⟨(x, y) :: l, rfl, rfl, by rintro q (_ | ⟨_, hq⟩) <;> [exact h; exact hl q hq]⟩
      · rintro ⟨l, h1, h2, hl⟩
        cases l with
        | nil => cases h1
        | cons q l =>
          cases h1; cases h2
          exact ⟨hl q (by simp), l, rfl, rfl, fun q hq => hl q (by simp [hq])⟩
theorem pyEqN_values (fs : List (String × Val)) (ys : List Val) : pyEqN fs ys = pyEqL (fs.map (·.2)) ys := by
  induction fs generalizing ys with
  | nil => rfl
  | cons f fs ih => cases ys with
    | nil => rfl
    | cons y ys => obtain ⟨n, x⟩ := f; simp only [pyEqN, pyEqS, List.map_cons, pyEqL, ih]
theorem pySub_iff {xs ys : List Val} : pySub xs ys = true ↔ ∀ x ∈ xs, ∃ y ∈ ys, pyEq x y = true := by
  induction xs with
  | nil => simp [pySub]
  | cons x xs ih => simp [pySub, ih]
theorem pySubKV_iff {xs ys : List (Val × Val)} : pySubKV xs ys = true ↔ ∀ p ∈ xs, ∃ q ∈ ys, pyEq p.1 q.1 = true ∧ pyEq p.2 q.2 = true := by
  induction xs with
  | nil => simp [pySubKV]
  | cons x xs ih => obtain ⟨a, b⟩ := x; simp [pySubKV, pyEqP, ih]
theorem pySubN_iff {xs ys : List (String × Val)} : pySubN xs ys = true ↔ ∀ p ∈ xs, ∃ q ∈ ys, p.1 = q.1 ∧ pyEq p.2 q.2 = true := by
  induction xs with
  | nil => simp [pySubN]
  | cons x xs ih => obtain ⟨a, b⟩ := x; simp [pySubN, pyEqS, ih]

theorem fscale_ne : fscale ≠ 0 := by decide +kernel

/-- The value of a number. -/
def numPF : Num → PF
  | .int i => PF.ofInt i
  | .flt f => f

theorem numKey_is {v : Val} {k : Num} (h : numKey v = some k) (x : PF) : NumIs v x ↔ x ≠ .nan ∧ x = numPF k := by
  cases v <;> simp only [numKey, Option.some.injEq, reduceCtorEq] at h <;> subst h
  · rename_i b
    cases b
    · constructor
      · rintro ⟨⟩; simp [PF.ofInt, numPF]
      · rintro ⟨_, h⟩; dsimp only [numPF] at h; rw [h]; simp only [PF.ofInt, Bool.false_eq_true, if_false, Int.zero_mul]; exact .false
    · constructor
      · rintro ⟨⟩; simp [PF.ofInt, numPF]
      · rintro ⟨_, h⟩; dsimp only [numPF] at h; rw [h]; simp only [PF.ofInt, if_true, Int.one_mul]; exact .true
  · constructor
    · rintro ⟨⟩; simp [PF.ofInt, numPF]
    · rintro ⟨_, h⟩; dsimp only [numPF] at h; rw [h]; exact .int
  · constructor
    · rintro ⟨⟩; exact ⟨by assumption, rfl⟩
    · rintro ⟨hn, h⟩; dsimp only [numPF] at h; subst h; exact .float hn

theorem pf_eq_iff (a b : PF) : PF.eq a b = true ↔ a = b ∧ a ≠ .nan := by
  cases a <;> cases b <;> simp [PF.eq]

theorem num_eq_iff (a b : Num) : Num.eq a b = true ↔ ∃ x : PF, x ≠ .nan ∧ x = numPF a ∧ x = numPF b := by
  cases a <;> cases b <;> simp only [Num.eq, pf_eq_iff, beq_iff_eq, numPF]
  · rename_i i j
    constructor
    · rintro rfl; exact ⟨_, by simp [PF.ofInt, numPF], rfl, rfl⟩
    · rintro ⟨x, _, rfl, h⟩
      simp only [PF.ofInt, PF.fin.injEq] at h
      exact Int.eq_of_mul_eq_mul_right fscale_ne h
  · constructor
    · rintro ⟨h1, h2⟩; exact ⟨_, h2, rfl, h1⟩
    · rintro ⟨x, h, rfl, h'⟩; exact ⟨h', h⟩
  · constructor
    · rintro ⟨h1, h2⟩; exact ⟨_, h2, rfl, h1⟩
    · rintro ⟨x, h, rfl, h'⟩; exact ⟨h', h⟩
  · constructor
    · rintro ⟨h1, h2⟩; exact ⟨_, h2, rfl, h1⟩
    · rintro ⟨x, h, rfl, h'⟩; exact ⟨h', h⟩

theorem pyEq_num {v w : Val} {k : Num} (h : numKey v = some k) : pyEq v w = true ↔ ∃ x, NumIs v x ∧ NumIs w x := by
  have h1 : pyEq v w = match numKey w with
      | some y => Num.eq k y
      | none => false := by
    cases v <;> simp only [numKey, Option.some.injEq, reduceCtorEq] at h <;> subst h <;> simp only [pyEq] <;> rfl
  rw [h1]
  cases hw : numKey w with
  | none =>
    refine ⟨(by simp), ?_⟩
    rintro ⟨x, _, h⟩; cases h <;> cases hw
  | some y =>
    dsimp only
    rw [num_eq_iff]
    constructor
    · rintro ⟨x, h1, h2, h3⟩; exact ⟨x, (numKey_is h x).2 ⟨h1, h2⟩, (numKey_is hw x).2 ⟨h1, h3⟩⟩
    · rintro ⟨x, h1, h2⟩; exact ⟨x, ((numKey_is h x).1 h1).1, ((numKey_is h x).1 h1).2, ((numKey_is hw x).1 h2).2⟩

theorem pyEq_single {v w : Val} (h : Single v) : pyEq v w = true ↔ w = v := by
  cases h <;> simp only [pyEq]
  case none => cases w <;> simp
  case str => cases w <;> simp; exact eq_comm
  case bytes => cases w <;> simp; exact eq_comm
  case enum => cases w <;> simp; exact and_congr eq_comm eq_comm
  all_goals exact beq_iff_eq

/-- Pigeonhole principle: if the elements of `xs` are pairwise unrelated and each one is related to an element of `ys`, then `ys` is not shorter; if it is not
longer either, then each element of `ys` is related to one of `xs`. -/
theorem pigeon {α β : Type} {R : α → β → Prop} {E : α → α → Prop} {xs : List α} {ys : List β} (hE : ∀ x ∈ xs, ∀ x' ∈ xs, ∀ y ∈ ys, R x y → R x' y → E x x')
    (hd : xs.Pairwise (fun a b => ¬ E a b)) (h : ∀ x ∈ xs, ∃ y ∈ ys, R x y) :
    xs.length ≤ ys.length ∧ (ys.length ≤ xs.length → ∀ y ∈ ys, ∃ x ∈ xs, R x y) := by
  classical
  have hf : ∃ zs : List β, zs.Nodup ∧ zs ⊆ ys ∧ zs.length = xs.length ∧ ∀ z ∈ zs, ∃ x ∈ xs, R x z := by
    induction xs with
    | nil => exact ⟨[], by simp, by simp, rfl, by simp⟩
    | cons x xs ih =>
      obtain ⟨hx, hd⟩ := List.pairwise_cons.1 hd
      obtain ⟨zs, h1, h2, h3, h4⟩ := ih (fun x hx x' hx' => hE x (by simp [hx]) x' (by simp [hx'])) hd (fun x hx => h x (by simp [hx]))
      obtain ⟨y, hy, hr⟩ := h x (by simp)
      refine ⟨y :: zs, List.nodup_cons.2 ⟨fun hm => ?_, h1⟩, List.cons_subset.2 ⟨hy, h2⟩, by simp [h3], ?_⟩
      · obtain ⟨x', hx', hr'⟩ := h4 y hm
        exact hx x' hx' (hE x (by simp) x' (by simp [hx']) y hy hr hr')
      · rintro z (_ | ⟨_, hz⟩)
        · exact ⟨x, by simp, hr⟩
        · obtain ⟨x', hx', hr'⟩ := h4 z hz; exact ⟨x', by simp [hx'], hr'⟩
  obtain ⟨zs, h1, h2, h3, h4⟩ := hf
  have hs : zs.Subperm ys := h1.subperm h2
  refine ⟨h3 ▸ hs.length_le, fun hl y hy => ?_⟩
  exact h4 y ((hs.perm_of_length_le (h3 ▸ hl)).symm.subset hy)

theorem sizeOf_elem {k : SeqKind} {xs : List Val} {x : Val} (h : x ∈ xs) : sizeOf x < sizeOf (Val.seq k xs) := by
  have := List.sizeOf_lt_of_mem h
  simp only [Val.seq.sizeOf_spec]; omega
theorem sizeOf_dict {kvs : List (Val × Val)} {p : Val × Val} (h : p ∈ kvs) : sizeOf p.1 < sizeOf (Val.dict kvs) ∧ sizeOf p.2 < sizeOf (Val.dict kvs) := by
  have := List.sizeOf_lt_of_mem h
  obtain ⟨a, b⟩ := p
  simp only [Val.dict.sizeOf_spec, Prod.mk.sizeOf_spec] at this ⊢; omega
theorem sizeOf_ns {kvs : List (String × Val)} {p : String × Val} (h : p ∈ kvs) : sizeOf p.2 < sizeOf (Val.ns kvs) := by
  have := List.sizeOf_lt_of_mem h
  obtain ⟨a, b⟩ := p
  simp only [Val.ns.sizeOf_spec, Prod.mk.sizeOf_spec] at this ⊢; omega
theorem sizeOf_nt {c : Nat} {kvs : List (String × Val)} {p : String × Val} (h : p ∈ kvs) : sizeOf p.2 < sizeOf (Val.nt c kvs) := by
  have := List.sizeOf_lt_of_mem h
  obtain ⟨a, b⟩ := p
  simp only [Val.nt.sizeOf_spec, Prod.mk.sizeOf_spec] at this ⊢; omega
theorem sizeOf_inst {c : Nat} {kvs : List (String × Val)} {p : String × Val} (h : p ∈ kvs) : sizeOf p.2 < sizeOf (Val.inst c kvs) := by
  have := List.sizeOf_lt_of_mem h
  obtain ⟨a, b⟩ := p
  simp only [Val.inst.sizeOf_spec, Prod.mk.sizeOf_spec] at this ⊢; omega

theorem TupleItems.parts {v : Val} {xs : List Val} (h : TupleItems v xs) : ∀ x ∈ xs, sizeOf x < sizeOf v ∧ (Legal W v → Legal W x) := by
  intro x hx
  cases h with
  | tuple => exact ⟨sizeOf_elem hx, fun hv => hv.inside (.elem .self hx)⟩
  | nt =>
    obtain ⟨p, hp, rfl⟩ := List.mem_map.1 hx
    exact ⟨sizeOf_nt hp, fun hv => hv.inside (.item .self hp)⟩
theorem SetItems.parts {v : Val} {xs : List Val} (h : SetItems v xs) : ∀ x ∈ xs, sizeOf x < sizeOf v ∧ (Legal W v → Legal W x) := by
  intro x hx
  cases h <;> exact ⟨sizeOf_elem hx, fun hv => hv.inside (.elem .self hx)⟩
theorem SetItems.distinct {v : Val} {xs : List Val} (h : SetItems v xs) (hv : Legal W v) : Distinct xs := by
  cases h <;> exact (hv.top rfl).1

theorem pyEq_tuple {v w : Val} {xs : List Val} (h : TupleItems v xs) : pyEq v w = true ↔ ∃ ys, TupleItems w ys ∧ pyEqL xs ys = true := by
  cases h with
  | tuple =>
    cases w with
    | seq k ys =>
      simp only [pyEq, SeqKind.isSet, Bool.false_eq_true, if_false, Bool.and_eq_true, beq_iff_eq]
      constructor
      · rintro ⟨rfl, h⟩; exact ⟨_, .tuple, h⟩
      · rintro ⟨_, ⟨⟩, h⟩; exact ⟨rfl, h⟩
    | nt c fs =>
      simp only [pyEq, Bool.and_eq_true, beq_iff_eq, true_and]
      exact ⟨fun h => ⟨_, .nt, h⟩, by rintro ⟨_, h1, h⟩; rw [TupleItems.unique h1 .nt] at h; exact h⟩
    | _ => exact ⟨(by simp [pyEq]), by rintro ⟨_, h, _⟩; cases h⟩
  | nt =>
    cases w with
    | seq k ys =>
      simp only [pyEq, Bool.and_eq_true, beq_iff_eq, pyEqN_values]
      constructor
      · rintro ⟨rfl, h⟩; exact ⟨_, .tuple, h⟩
      · rintro ⟨_, ⟨⟩, h⟩; exact ⟨rfl, h⟩
    | nt c fs =>
      simp only [pyEq, pyEqN_values]
      exact ⟨fun h => ⟨_, .nt, h⟩, by rintro ⟨_, h1, h⟩; rw [TupleItems.unique h1 .nt] at h; exact h⟩
    | _ => exact ⟨(by simp [pyEq]), by rintro ⟨_, h, _⟩; cases h⟩

theorem pyEq_set {v w : Val} {xs : List Val} (h : SetItems v xs) :
    pyEq v w = true ↔ ∃ ys, SetItems w ys ∧ xs.length = ys.length ∧ ∀ x ∈ xs, ∃ y ∈ ys, pyEq x y = true := by
  cases w with
  | seq k ys =>
    cases h
    all_goals
      simp only [pyEq, SeqKind.isSet, if_true, Bool.and_eq_true, beq_iff_eq, pySub_iff]
      constructor
      · rintro ⟨⟨hk, h1⟩, h2⟩
        refine ⟨ys, ?_, h1, h2⟩
        cases k <;> simp at hk
        · exact .set
        · exact .frozenset
      · rintro ⟨_, ⟨⟩, h1, h2⟩ <;> exact ⟨⟨rfl, h1⟩, h2⟩
  | _ => cases h <;> exact ⟨(by simp [pyEq, SeqKind.isSet]), by rintro ⟨_, h, _⟩; cases h⟩

theorem matching {α β : Type} {R : α → β → Prop} {xs : List α} {ys : List β} (h : ∀ x ∈ xs, ∃ y ∈ ys, R x y) (h' : ∀ y ∈ ys, ∃ x ∈ xs, R x y) :
    ∃ l : List (α × β), (∀ x, x ∈ xs ↔ ∃ q ∈ l, x = q.1) ∧ (∀ y, y ∈ ys ↔ ∃ q ∈ l, y = q.2) ∧ ∀ q ∈ l, R q.1 q.2 := by
  classical
  have hm : ∀ q : α × β, q ∈ xs.flatMap (fun x => (ys.filter (fun y => decide (R x y))).map (fun y => (x, y))) ↔ q.1 ∈ xs ∧ q.2 ∈ ys ∧ R q.1 q.2 := by
    intro q
    simp only [List.mem_flatMap, List.mem_map, List.mem_filter, decide_eq_true_eq]
    constructor
    · rintro ⟨x, hx, y, ⟨hy, hr⟩, rfl⟩; exact ⟨hx, hy, hr⟩
    · rintro ⟨hx, hy, hr⟩; exact ⟨_, hx, _, ⟨hy, hr⟩, rfl⟩
  refine ⟨_, fun x => ⟨fun hx => ?_, ?_⟩, fun y => ⟨fun hy => ?_, ?_⟩, fun q hq => ((hm q).1 hq).2.2⟩
  · obtain ⟨y, hy, hr⟩ := h x hx; exact ⟨(x, y), (hm _).2 ⟨hx, hy, hr⟩, rfl⟩
  · rintro ⟨q, hq, rfl⟩; exact ((hm q).1 hq).1
  · obtain ⟨x, hx, hr⟩ := h' y hy; exact ⟨(x, y), (hm _).2 ⟨hx, hy, hr⟩, rfl⟩
  · rintro ⟨q, hq, rfl⟩; exact ((hm q).1 hq).2.1
theorem unmatching {α β : Type} {R : α → β → Prop} {xs : List α} {ys : List β} {l : List (α × β)} (h1 : ∀ x, x ∈ xs ↔ ∃ q ∈ l, x = q.1)
    (h2 : ∀ y, y ∈ ys ↔ ∃ q ∈ l, y = q.2) (h : ∀ q ∈ l, R q.1 q.2) : (∀ x ∈ xs, ∃ y ∈ ys, R x y) ∧ ∀ y ∈ ys, ∃ x ∈ xs, R x y := by
  constructor
  · intro x hx; obtain ⟨q, hq, rfl⟩ := (h1 x).1 hx; exact ⟨_, (h2 _).2 ⟨q, hq, rfl⟩, h q hq⟩
  · intro x hx; obtain ⟨q, hq, rfl⟩ := (h2 x).1 hx; exact ⟨_, (h1 _).2 ⟨q, hq, rfl⟩, h q hq⟩
theorem zip_triples {fs gs : List (String × Val)} {R : Val → Val → Prop} (h : fs.map (·.1) = gs.map (·.1))
    (h' : ∃ l : List (Val × Val), fs.map (·.2) = l.map (·.1) ∧ gs.map (·.2) = l.map (·.2) ∧ ∀ q ∈ l, R q.1 q.2) :
    ∃ l : List (String × Val × Val), fs = l.map (fun q => (q.1, q.2.1)) ∧ gs = l.map (fun q => (q.1, q.2.2)) ∧ ∀ q ∈ l, R q.2.1 q.2.2 := by
  obtain ⟨l, h1, h2, h3⟩ := h'
  induction l generalizing fs gs with
  | nil =>
    cases fs <;> cases gs <;> simp_all
  | cons q l ih =>
    cases fs with
    | nil => cases h1
    | cons f fs => cases gs with
      | nil => cases h2
      | cons g gs =>
        simp only [List.map_cons, List.cons.injEq] at h h1 h2
        obtain ⟨m, e1, e2, e3⟩ := ih h.2 h1.2 h2.2 (fun q hq => h3 q (by simp [hq]))
        refine ⟨(f.1, q.1, q.2) :: m, ?_, ?_, ?_⟩
        · simp only [List.map_cons]; rw [← e1, ← h1.1]
        · simp only [List.map_cons]; rw [← e2, ← h2.1, h.1]
        · rintro q' (_ | ⟨_, hq⟩)
          · exact h3 q (by simp)
          · exact e3 _ hq

theorem pyEq_iff_bounded (n : Nat) : ∀ v w : Val, sizeOf v < n → sizeOf w < n → Legal W v → Legal W w → (pyEq v w = true ↔ Equal v w) := by
  induction n with
  | zero => intro v w h; omega
  | succ n ih =>
  intro v w hnv hnw hv hw
  have hsingle : Single v → (pyEq v w = true ↔ Equal v w) := by
    intro h
    rw [pyEq_single h]
    exact ⟨fun h' => by rw [h']; exact .single h, fun h' => h'.single_inv h⟩
  have hnum : ∀ k, numKey v = some k → (pyEq v w = true ↔ Equal v w) := by
    intro k hk
    rw [pyEq_num hk]
    constructor
    · rintro ⟨x, h1, h2⟩; exact .num h1 h2
    · intro h
      cases h with
      | num h1 h2 => exact ⟨_, h1, h2⟩
      | single h => cases h <;> cases hk
      | list h => subst h; cases hk
      | tuple h => generalize List.map _ _ = z at h; cases h <;> cases hk
      | set h => cases h <;> cases hk
      | dict h => subst h; cases hk
      | ns h => subst h; cases hk
      | inst h => subst h; cases hk
      | pattern h => cases hk
  have hzip : ∀ {l : List (Val × Val)}, (∀ x ∈ l.map (·.1), sizeOf x < sizeOf v ∧ Legal W x) → (∀ x ∈ l.map (·.2), sizeOf x < sizeOf w ∧ Legal W x) →
      ((∀ q ∈ l, pyEq q.1 q.2 = true) ↔ ∀ q ∈ l, Equal q.1 q.2) := by
    intro l h1 h2
    refine forall_congr' fun q => imp_congr_right fun hq => ?_
    obtain ⟨a1, a2⟩ := h1 _ (List.mem_map_of_mem hq)
    obtain ⟨b1, b2⟩ := h2 _ (List.mem_map_of_mem hq)
    exact ih _ _ (by omega) (by omega) a2 b2
  have htuple : ∀ xs, TupleItems v xs → (pyEq v w = true ↔ Equal v w) := by
    intro xs hx
    rw [pyEq_tuple hx]
    constructor
    · rintro ⟨ys, hy, h⟩
      obtain ⟨l, rfl, rfl, hl⟩ := pyEqL_iff.1 h
      exact .tuple hx hy ((hzip (fun x hm => ⟨(hx.parts (W := W) x hm).1, (hx.parts x hm).2 hv⟩) (fun x hm => ⟨(hy.parts (W := W) x hm).1, (hy.parts x hm).2 hw⟩)).1 hl)
    · intro h
      obtain ⟨l, rfl, hy, h⟩ := h.tuple_inv hx
      exact ⟨_, hy, pyEqL_iff.2 ⟨l, rfl, rfl,
        (hzip (fun x hm => ⟨(hx.parts (W := W) x hm).1, (hx.parts x hm).2 hv⟩) (fun x hm => ⟨(hy.parts (W := W) x hm).1, (hy.parts x hm).2 hw⟩)).2 h⟩⟩
  have hset : ∀ xs, SetItems v xs → (pyEq v w = true ↔ Equal v w) := by
    intro xs hx
    rw [pyEq_set hx]
    have hd : xs.Pairwise (fun a b => ¬ Equal a b) := by
      refine (hx.distinct hv).imp_of_mem ?_
      intro a b ha hb h he
      have := (ih a b (by have := (hx.parts (W := W) a ha).1; omega) (by have := (hx.parts (W := W) b hb).1; omega) ((hx.parts a ha).2 hv) ((hx.parts b hb).2 hv)).2 he
      rw [h] at this; cases this
    constructor
    · rintro ⟨ys, hy, hl, h⟩
      have h : ∀ x ∈ xs, ∃ y ∈ ys, Equal x y := by
        intro x hm
        obtain ⟨y, hym, h⟩ := h x hm
        exact ⟨y, hym, (ih _ _ (by have := (hx.parts (W := W) x hm).1; omega) (by have := (hy.parts (W := W) y hym).1; omega) ((hx.parts x hm).2 hv) ((hy.parts y hym).2 hw)).1 h⟩
      have h' := (pigeon (E := Equal) (fun x _ x' _ y _ h1 h2 => h1.trans h2.symm) hd h).2 (by omega)
      obtain ⟨l, h1, h2, h3⟩ := matching h h'
      exact .set hx hy h1 h2 h3
    · intro h
      obtain ⟨l, ys, hy, h1, h2, h⟩ := h.set_inv hx
      have hd' : ys.Pairwise (fun a b => ¬ Equal a b) := by
        refine (hy.distinct hw).imp_of_mem ?_
        intro a b ha hb h he
        have := (ih a b (by have := (hy.parts (W := W) a ha).1; omega) (by have := (hy.parts (W := W) b hb).1; omega) ((hy.parts a ha).2 hw) ((hy.parts b hb).2 hw)).2 he
        rw [h] at this; cases this
      obtain ⟨m1, m2⟩ := unmatching h1 h2 h
      have l1 := (pigeon (E := Equal) (fun x _ x' _ y _ h1 h2 => h1.trans h2.symm) hd m1).1
      have l2 := (pigeon (R := fun y x => Equal x y) (E := Equal) (fun x _ x' _ y _ h1 h2 => h1.symm.trans h2) hd' m2).1
      refine ⟨ys, hy, by omega, ?_⟩
      intro x hm
      obtain ⟨y, hym, h⟩ := m1 x hm
      exact ⟨y, hym, (ih _ _ (by have := (hx.parts (W := W) x hm).1; omega) (by have := (hy.parts (W := W) y hym).1; omega) ((hx.parts x hm).2 hv) ((hy.parts y hym).2 hw)).2 h⟩
  cases v with
  | none => exact hsingle .none
  | bool b => exact hnum _ rfl
  | int i => exact hnum _ rfl
  | float f => exact hnum _ rfl
  | str s => exact hsingle .str
  | bytes s => exact hsingle .bytes
  | enumv e m => exact hsingle .enum
  | date => exact hsingle .date
  | time => exact hsingle .time
  | datetime => exact hsingle .datetime
  | timedelta => exact hsingle .timedelta
  | strobj => exact hsingle .strobj
  | «opaque» => exact hsingle .opaque
  | nt c fs => exact htuple _ .nt
  | seq k xs =>
    cases k with
    | tuple => exact htuple _ .tuple
    | set => exact hset _ .set
    | frozenset => exact hset _ .frozenset
    | list =>
      have : pyEq (.list xs) w = true ↔ ∃ ys, w = .list ys ∧ pyEqL xs ys = true := by
        cases w with
        | seq k ys =>
          simp only [pyEq, SeqKind.isSet, Bool.false_eq_true, if_false, Bool.and_eq_true, beq_iff_eq]
          constructor
          · rintro ⟨rfl, h⟩; exact ⟨_, rfl, h⟩
          · rintro ⟨_, ⟨⟩, h⟩; exact ⟨rfl, h⟩
        | _ => exact ⟨(by simp [pyEq]), by rintro ⟨_, h, _⟩; cases h⟩
      rw [this]
      constructor
      · rintro ⟨ys, rfl, h⟩
        obtain ⟨l, rfl, rfl, hl⟩ := pyEqL_iff.1 h
        exact .list rfl rfl ((hzip (fun x hm => ⟨sizeOf_elem hm, hv.inside (.elem .self hm)⟩) (fun x hm => ⟨sizeOf_elem hm, hw.inside (.elem .self hm)⟩)).1 hl)
      · intro h
        obtain ⟨l, rfl, rfl, hl⟩ := h.list_inv
        exact ⟨_, rfl, pyEqL_iff.2 ⟨l, rfl, rfl,
          (hzip (fun x hm => ⟨sizeOf_elem hm, hv.inside (.elem .self hm)⟩) (fun x hm => ⟨sizeOf_elem hm, hw.inside (.elem .self hm)⟩)).2 hl⟩⟩
  | dict kvs =>
    have : pyEq (.dict kvs) w = true ↔ ∃ kvs', w = .dict kvs' ∧ kvs.length = kvs'.length ∧ ∀ p ∈ kvs, ∃ q ∈ kvs', pyEq p.1 q.1 = true ∧ pyEq p.2 q.2 = true := by
      cases w with
      | dict ys =>
        simp only [pyEq, Bool.and_eq_true, beq_iff_eq, pySubKV_iff]
        constructor
        · rintro ⟨h1, h2⟩; exact ⟨_, rfl, h1, h2⟩
        · rintro ⟨_, ⟨⟩, h1, h2⟩; exact ⟨h1, h2⟩
      | _ => exact ⟨(by simp [pyEq]), by rintro ⟨_, h, _⟩; cases h⟩
    rw [this]
    have hd : ∀ {kvs : List (Val × Val)}, Legal W (.dict kvs) → sizeOf (Val.dict kvs) < n + 1 → kvs.Pairwise (fun a b => ¬ Equal a.1 b.1) := by
      intro kvs hv hn
      refine (List.pairwise_map.1 hv.top.1).imp_of_mem ?_
      intro a b ha hb h he
      have := (ih a.1 b.1 (by have := (sizeOf_dict ha).1; omega) (by have := (sizeOf_dict hb).1; omega) (hv.inside (.key .self ha)) (hv.inside (.key .self hb))).2 he
      rw [h] at this; cases this
    have hpair : ∀ {kvs'}, w = .dict kvs' → ∀ p ∈ kvs, ∀ q ∈ kvs', (pyEq p.1 q.1 = true ∧ pyEq p.2 q.2 = true ↔ Equal p.1 q.1 ∧ Equal p.2 q.2) := by
      rintro kvs' rfl p hp q hq
      have a := sizeOf_dict hp
      have b := sizeOf_dict hq
      exact and_congr (ih _ _ (by omega) (by omega) (hv.inside (.key .self hp)) (hw.inside (.key .self hq)))
        (ih _ _ (by omega) (by omega) (hv.inside (.val .self hp)) (hw.inside (.val .self hq)))
    constructor
    · rintro ⟨kvs', hw', hl, h⟩
      have h : ∀ p ∈ kvs, ∃ q ∈ kvs', Equal p.1 q.1 ∧ Equal p.2 q.2 := by
        intro p hp
        obtain ⟨q, hq, h⟩ := h p hp
        exact ⟨q, hq, (hpair hw' p hp q hq).1 h⟩
      have h' := (pigeon (E := fun p q => Equal p.1 q.1) (fun x _ x' _ y _ h1 h2 => h1.1.trans h2.1.symm) (hd hv hnv) h).2 (by omega)
      obtain ⟨l, h1, h2, h3⟩ := matching h h'
      exact .dict rfl hw' h1 h2 (fun q hq => (h3 q hq).1) (fun q hq => (h3 q hq).2)
    · intro h
      obtain ⟨l, kvs', hw', h1, h2, h3, h4⟩ := h.dict_inv
      obtain ⟨m1, m2⟩ := unmatching (R := fun p q : Val × Val => Equal p.1 q.1 ∧ Equal p.2 q.2) h1 h2 (fun q hq => ⟨h3 q hq, h4 q hq⟩)
      have l1 := (pigeon (E := fun p q => Equal p.1 q.1) (fun x _ x' _ y _ h1 h2 => h1.1.trans h2.1.symm) (hd hv hnv) m1).1
      have l2 := (pigeon (R := fun q p : Val × Val => Equal p.1 q.1 ∧ Equal p.2 q.2) (E := fun p q => Equal p.1 q.1)
        (fun x _ x' _ y _ h1 h2 => h1.1.symm.trans h2.1) (hd (hw' ▸ hw) (hw' ▸ hnw)) m2).1
      refine ⟨kvs', hw', by omega, ?_⟩
      intro p hp
      obtain ⟨q, hq, h⟩ := m1 p hp
      exact ⟨q, hq, (hpair hw' p hp q hq).2 h⟩
  | ns kvs =>
    have : pyEq (.ns kvs) w = true ↔ ∃ kvs', w = .ns kvs' ∧ kvs.length = kvs'.length ∧ ∀ p ∈ kvs, ∃ q ∈ kvs', p.1 = q.1 ∧ pyEq p.2 q.2 = true := by
      cases w with
      | ns ys =>
        simp only [pyEq, Bool.and_eq_true, beq_iff_eq, pySubN_iff]
        constructor
        · rintro ⟨h1, h2⟩; exact ⟨_, rfl, h1, h2⟩
        · rintro ⟨_, ⟨⟩, h1, h2⟩; exact ⟨h1, h2⟩
      | _ => exact ⟨(by simp [pyEq]), by rintro ⟨_, h, _⟩; cases h⟩
    rw [this]
    have hd : ∀ {kvs : List (String × Val)}, Legal W (.ns kvs) → kvs.Pairwise (fun a b => ¬ a.1 = b.1) := fun hv => List.pairwise_map.1 hv.top
    have hpair : ∀ {kvs'}, w = .ns kvs' → ∀ p ∈ kvs, ∀ q ∈ kvs', (p.1 = q.1 ∧ pyEq p.2 q.2 = true ↔ p.1 = q.1 ∧ Equal p.2 q.2) := by
      rintro kvs' rfl p hp q hq
      have a := sizeOf_ns hp
      have b := sizeOf_ns hq
      exact and_congr Iff.rfl (ih _ _ (by omega) (by omega) (hv.inside (.arg .self hp)) (hw.inside (.arg .self hq)))
    constructor
    · rintro ⟨kvs', hw', hl, h⟩
      have h : ∀ p ∈ kvs, ∃ q ∈ kvs', p.1 = q.1 ∧ Equal p.2 q.2 := by
        intro p hp
        obtain ⟨q, hq, h⟩ := h p hp
        exact ⟨q, hq, (hpair hw' p hp q hq).1 h⟩
      have h' := (pigeon (E := fun p q => p.1 = q.1) (fun x _ x' _ y _ h1 h2 => h1.1.trans h2.1.symm) (hd hv) h).2 (by omega)
      obtain ⟨l, h1, h2, h3⟩ := matching h h'
      refine .ns (l := l.map (fun q => (q.1.1, q.1.2, q.2.2))) rfl hw' (fun p => (h1 p).trans ?_) (fun p => (h2 p).trans ?_) ?_
      · constructor
        · rintro ⟨q, hq, rfl⟩; exact ⟨_, List.mem_map.2 ⟨q, hq, rfl⟩, rfl⟩
        · rintro ⟨q, hq, rfl⟩; obtain ⟨q', hq', rfl⟩ := List.mem_map.1 hq; exact ⟨q', hq', rfl⟩
      · constructor
        · rintro ⟨q, hq, rfl⟩; exact ⟨_, List.mem_map.2 ⟨q, hq, rfl⟩, by dsimp only; rw [(h3 q hq).1]⟩
        · rintro ⟨q, hq, rfl⟩; obtain ⟨q', hq', rfl⟩ := List.mem_map.1 hq; exact ⟨q', hq', by dsimp only; rw [(h3 q' hq').1]⟩
      · intro q hq; obtain ⟨q', hq', rfl⟩ := List.mem_map.1 hq; exact (h3 q' hq').2
    · intro h
      obtain ⟨l, kvs', hw', h1, h2, h3⟩ := h.ns_inv
      obtain ⟨m1, m2⟩ := unmatching (l := l.map (fun q => ((q.1, q.2.1), (q.1, q.2.2)))) (R := fun p q : String × Val => p.1 = q.1 ∧ Equal p.2 q.2)
        (xs := kvs) (ys := kvs') (fun p => (h1 p).trans (by
          constructor
          · rintro ⟨q, hq, rfl⟩; exact ⟨_, List.mem_map.2 ⟨q, hq, rfl⟩, rfl⟩
          · rintro ⟨q, hq, rfl⟩; obtain ⟨q', hq', rfl⟩ := List.mem_map.1 hq; exact ⟨q', hq', rfl⟩)) (fun p => (h2 p).trans (by
          constructor
          · rintro ⟨q, hq, rfl⟩; exact ⟨_, List.mem_map.2 ⟨q, hq, rfl⟩, rfl⟩
          · rintro ⟨q, hq, rfl⟩; obtain ⟨q', hq', rfl⟩ := List.mem_map.1 hq; exact ⟨q', hq', rfl⟩))
        (fun q hq => by obtain ⟨q', hq', rfl⟩ := List.mem_map.1 hq; exact ⟨rfl, h3 q' hq'⟩)
      have l1 := (pigeon (E := fun p q => p.1 = q.1) (fun x _ x' _ y _ h1 h2 => h1.1.trans h2.1.symm) (hd hv) m1).1
      have l2 := (pigeon (R := fun q p : String × Val => p.1 = q.1 ∧ Equal p.2 q.2) (E := fun p q => p.1 = q.1)
        (fun x _ x' _ y _ h1 h2 => h1.1.symm.trans h2.1) (hd (hw' ▸ hw)) m2).1
      refine ⟨kvs', hw', by omega, ?_⟩
      intro p hp
      obtain ⟨q, hq, h⟩ := m1 p hp
      exact ⟨q, hq, (hpair hw' p hp q hq).2 h⟩
  | inst c fs =>
    have : pyEq (.inst c fs) w = true ↔ ∃ gs, w = .inst c gs ∧ fs.map (·.1) = gs.map (·.1) ∧ pyEqL (fs.map (·.2)) (gs.map (·.2)) = true := by
      cases w with
      | inst d ys =>
        simp only [pyEq, Bool.and_eq_true, beq_iff_eq, pyEqN_values]
        constructor
        · rintro ⟨⟨rfl, h1⟩, h2⟩; exact ⟨_, rfl, h1, h2⟩
        · rintro ⟨_, ⟨⟩, h1, h2⟩; exact ⟨⟨rfl, h1⟩, h2⟩
      | _ => exact ⟨(by simp [pyEq]), by rintro ⟨_, h, _⟩; cases h⟩
    rw [this]
    constructor
    · rintro ⟨gs, rfl, h1, h2⟩
      obtain ⟨l, e1, e2, h3⟩ := zip_triples (R := fun x y => pyEq x y = true) h1 (pyEqL_iff.1 h2)
      subst e1; subst e2
      refine .inst rfl rfl (fun q hq => ?_)
      have hm1 : (q.1, q.2.1) ∈ l.map (fun q => (q.1, q.2.1)) := List.mem_map.2 ⟨q, hq, rfl⟩
      have hm2 : (q.1, q.2.2) ∈ l.map (fun q => (q.1, q.2.2)) := List.mem_map.2 ⟨q, hq, rfl⟩
      have a := sizeOf_inst (c := c) hm1
      have b := sizeOf_inst (c := c) hm2
      dsimp only at a b
      exact (ih _ _ (by omega) (by omega) (hv.inside (.attr .self hm1)) (hw.inside (.attr .self hm2))).1 (h3 q hq)
    · intro h
      obtain ⟨l, rfl, rfl, hl⟩ := h.inst_inv
      refine ⟨_, rfl, by simp [Function.comp_def], pyEqL_iff.2 ⟨l.map (·.2), by simp [Function.comp_def], by simp [Function.comp_def], ?_⟩⟩
      intro q' hq'
      obtain ⟨q, hq, rfl⟩ := List.mem_map.1 hq'
      have hm1 : (q.1, q.2.1) ∈ l.map (fun q => (q.1, q.2.1)) := List.mem_map.2 ⟨q, hq, rfl⟩
      have hm2 : (q.1, q.2.2) ∈ l.map (fun q => (q.1, q.2.2)) := List.mem_map.2 ⟨q, hq, rfl⟩
      have a := sizeOf_inst (c := c) hm1
      have b := sizeOf_inst (c := c) hm2
      dsimp only at a b
      exact (ih _ _ (by omega) (by omega) (hv.inside (.attr .self hm1)) (hw.inside (.attr .self hm2))).2 (hl q hq)
  | pattern s =>
    cases w with
    | pattern s' =>
      simp only [pyEq]
      simp only [Val.pattern.sizeOf_spec] at hnv hnw
      have := ih s s' (by omega) (by omega) (hv.inside (.source .self)) (hw.inside (.source .self))
      rw [this]
      constructor
      · exact .pattern
      · intro h; obtain ⟨_, ⟨⟩, h⟩ := h.pattern_inv; exact h
    | _ => exact ⟨(by simp [pyEq]), fun h => by obtain ⟨_, h, _⟩ := h.pattern_inv; cases h⟩

/-- The model's `==` is Python's. -/
theorem pyEq_iff_equal {v w : Val} (hv : Legal W v) (hw : Legal W w) : pyEq v w = true ↔ Equal v w :=
  pyEq_iff_bounded (sizeOf v + sizeOf w + 1) v w (by omega) (by omega) hv hw

end TL
