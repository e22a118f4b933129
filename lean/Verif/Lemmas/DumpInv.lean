import Verif.Lemmas.Dump
import Verif.Lemmas.Names
/-!
# What a successful dump consists of
-/

namespace TL

variable {W : World} {C : DConfig}

theorem R.bind_ok {α β : Type} {m : M Unit Exc α} {f : α → M Unit Exc β} {r : β} :
    (m >>= f) () = .ok r () ↔ ∃ a, m () = .ok a () ∧ f a () = .ok r () := by
  rw [M.bind_apply]
  cases h : m () with
  | ok a s => cases s; simp
  | err e s => simp
  | div => simp

theorem R.pure_ok {α : Type} {a r : α} : (Pure.pure a : M Unit Exc α) () = .ok r () ↔ r = a := by
  constructor
  · intro h; cases h; rfl
  · rintro rfl; rfl

section
variable {rec : DRec Unit}

theorem dumpList_ok {xs ys : List Val} : dumpList rec xs () = .ok ys () ↔ Zip2 (fun x y => rec x .any () = .ok y ()) xs ys := by
  induction xs generalizing ys with
  | nil =>
    constructor
    · intro h; cases h; exact .nil
    · intro h; cases h; rfl
  | cons x xs ih =>
    simp only [dumpList, R.bind_ok]
    constructor
    · rintro ⟨y, h1, ys', h2, h3⟩
      cases h3
      exact .cons h1 (ih.1 h2)
    · intro h
      cases h with
      | cons h1 h2 => exact ⟨_, h1, _, ih.2 h2, rfl⟩

theorem dumpDict_ok {kvs acc r : List (Val × Val)} : dumpDict W rec kvs acc () = .ok r () ↔
    ∃ l : List (Val × Val), Zip2 (fun p q => rec p.1 .any () = .ok q.1 () ∧ rec p.2 .any () = .ok q.2 () ∧ W.hash q.1 = true) kvs l ∧
      r = l.foldl (fun a q => dset a q.1 q.2) acc := by
  induction kvs generalizing acc with
  | nil =>
    constructor
    · intro h; cases h; exact ⟨[], .nil, rfl⟩
    · rintro ⟨l, hl, rfl⟩; cases hl; rfl
  | cons p kvs ih =>
    obtain ⟨k, x⟩ := p
    simp only [dumpDict, R.bind_ok]
    constructor
    · rintro ⟨k', h1, x', h2, h3⟩
      cases hh : W.hash k' with
      | false => rw [hh] at h3; cases h3
      | true =>
        rw [hh] at h3
        obtain ⟨l, hl, rfl⟩ := ih.1 h3
        exact ⟨(k', x') :: l, .cons ⟨h1, h2, hh⟩ hl, rfl⟩
    · rintro ⟨l, hl, rfl⟩
      cases hl with
      | cons h hl =>
        refine ⟨_, h.1, _, h.2.1, ?_⟩
        rw [h.2.2]
        exact ih.2 ⟨_, hl, rfl⟩

theorem dumpNt_ok {defaults fs : List (String × Val)} {r : List (Val × Val)} : dumpNt C rec defaults fs () = .ok r () ↔
    Zip2 (fun p q => q.1 = .str p.1 ∧ rec p.2 .any () = .ok q.2 ()) (fs.filter (fun p => !(C.hidedefault && isDefault defaults p.1 p.2))) r := by
  induction fs generalizing r with
  | nil =>
    constructor
    · intro h; cases h; exact .nil
    · intro h; cases h; rfl
  | cons p fs ih =>
    obtain ⟨k, x⟩ := p
    unfold dumpNt
    cases hb : (C.hidedefault && isDefault defaults k x) with
    | true => simp only [hb, Bool.not_true, Bool.false_eq_true, not_false_eq_true, List.filter_cons_of_neg, if_true]; exact ih
    | false =>
      simp only [hb, Bool.not_false, List.filter_cons_of_pos, Bool.false_eq_true, if_false, R.bind_ok]
      constructor
      · rintro ⟨y, h1, ys, h2, h3⟩
        cases h3
        exact .cons ⟨rfl, h1⟩ (ih.1 h2)
      · intro h
        cases h with
        | @cons _ q _ qs h1 h2 =>
          obtain ⟨a, b⟩ := q
          obtain ⟨h3, h4⟩ := h1
          dsimp only at h3; subst h3
          exact ⟨b, h4, qs, ih.2 h2, rfl⟩

/-- The key under which a field is dumped. -/
def dumpName (C : DConfig) (cd : ClassDef) (f : String) : String :=
  match cd.fields.find? (fun g => g.name == f) with
  | some g => (aget g.metadata C.mangleKey).getD f
  | none => f

theorem dumpFields_ok {cd : ClassDef} {defaults : List (String × Val)} {hints : List (String × Ty)} {vals : List (String × Val)} {fs : List String}
    {acc r : List (Val × Val)} : dumpFields W C rec cd defaults hints vals fs acc () = .ok r () ↔
    (∀ f ∈ fs, ∃ x, aget vals f = some x) ∧
    ∃ l : List (Val × Val), Zip2 (fun f q => q.1 = .str (dumpName C cd f) ∧ ∃ x, aget vals f = some x ∧ rec x ((aget hints f).getD .any) () = .ok q.2 ())
      (fs.filter (fun f => !(C.hidedefault && isDefault defaults f ((aget vals f).getD .none)))) l ∧
      r = l.foldl (fun a q => dset a q.1 q.2) acc := by
  induction fs generalizing acc with
  | nil =>
    constructor
    · intro h; cases h; exact ⟨fun _ h => (by cases h), [], .nil, rfl⟩
    · rintro ⟨_, l, hl, rfl⟩; cases hl; rfl
  | cons f fs ih =>
    unfold dumpFields
    cases hg : aget vals f with
    | none =>
      constructor
      · intro h; cases h
      · rintro ⟨h, _⟩
        obtain ⟨x, hx⟩ := h f (by simp)
        rw [hg] at hx; cases hx
    | some x =>
      dsimp only
      have hall : (∀ g ∈ f :: fs, ∃ x, aget vals g = some x) ↔ ∀ g ∈ fs, ∃ x, aget vals g = some x := by simp [hg]
      rw [hall]
      cases hb : (C.hidedefault && isDefault defaults f x) with
      | true =>
        rw [if_pos rfl, List.filter_cons_of_neg (by simp [hg, hb])]
        exact ih
      | false =>
        rw [if_neg (by simp), List.filter_cons_of_pos (by simp [hg, hb]), R.bind_ok]
        constructor
        · rintro ⟨y, h1, h2⟩
          obtain ⟨h3, l, hl, rfl⟩ := ih.1 h2
          exact ⟨h3, (.str (dumpName C cd f), y) :: l, .cons ⟨rfl, x, hg, h1⟩ hl, rfl⟩
        · rintro ⟨h3, l, hl, rfl⟩
          cases hl with
          | @cons _ q _ qs h1 h2 =>
            obtain ⟨a, b⟩ := q
            obtain ⟨h4, x', h5, h6⟩ := h1
            rw [hg] at h5; cases h5
            dsimp only at h4; subst h4
            exact ⟨b, h6, ih.2 ⟨h3, qs, h2, rfl⟩⟩

/-- An attribute equal to its default. -/
def attrIsDefault (f : Field) (x : Val) : Bool :=
  match f.default with
  | some d => pyEq x d
  | none => false

theorem dumpAttrs_ok {vals : List (String × Val)} {fs : List Field} {acc r : List (Val × Val)} : dumpAttrs C rec vals fs acc () = .ok r () ↔
    (∀ f ∈ fs, ∃ x, aget vals f.name = some x) ∧
    ∃ l : List (Val × Val), Zip2 (fun f q => q.1 = .str ((aget f.metadata C.mangleKey).getD f.name) ∧ ∃ x, aget vals f.name = some x ∧ rec x .any () = .ok q.2 ())
      (fs.filter (fun f => f.repr && !(C.hidedefault && attrIsDefault f ((aget vals f.name).getD .none)))) l ∧
      r = l.foldl (fun a q => dset a q.1 q.2) acc := by
  induction fs generalizing acc with
  | nil =>
    constructor
    · intro h; cases h; exact ⟨fun _ h => (by cases h), [], .nil, rfl⟩
    · rintro ⟨_, l, hl, rfl⟩; cases hl; rfl
  | cons f fs ih =>
    unfold dumpAttrs
    cases hg : aget vals f.name with
    | none =>
      constructor
      · intro h; cases h
      · rintro ⟨h, _⟩
        obtain ⟨x, hx⟩ := h f (by simp)
        rw [hg] at hx; cases hx
    | some x =>
      dsimp only
      have hall : (∀ g ∈ f :: fs, ∃ x, aget vals g.name = some x) ↔ ∀ g ∈ fs, ∃ x, aget vals g.name = some x := by simp [hg]
      rw [hall]
      cases hrp : f.repr with
      | false =>
        rw [if_pos (by simp), List.filter_cons_of_neg (by simp [hrp])]
        exact ih
      | true =>
        rw [if_neg (by simp)]
        change (if (C.hidedefault && attrIsDefault f x) = true then _ else _ : M Unit Exc _) () = _ ↔ _
        cases hb : (C.hidedefault && attrIsDefault f x) with
        | true =>
          rw [if_pos rfl, List.filter_cons_of_neg (by simp [hg, hb])]
          exact ih
        | false =>
          rw [if_neg (by simp), List.filter_cons_of_pos (by simp [hg, hb, hrp]), R.bind_ok]
          constructor
          · rintro ⟨y, h1, h2⟩
            obtain ⟨h3, l, hl, rfl⟩ := ih.1 h2
            exact ⟨h3, (.str ((aget f.metadata C.mangleKey).getD f.name), y) :: l, .cons ⟨rfl, x, hg, h1⟩ hl, rfl⟩
          · rintro ⟨h3, l, hl, rfl⟩
            cases hl with
            | @cons _ q _ qs h1 h2 =>
              obtain ⟨a, b⟩ := q
              obtain ⟨h4, x', h5, h6⟩ := h1
              rw [hg] at h5; cases h5
              dsimp only at h4; subst h4
              exact ⟨b, h6, ih.2 ⟨h3, qs, h2, rfl⟩⟩
end

/-! ## Dictionaries built by assignment -/

theorem dset_new {acc : List (Val × Val)} {k x : Val} (h : ∀ p ∈ acc, pyEq p.1 k = false) : dset acc k x = acc ++ [(k, x)] := by
  induction acc with
  | nil => rfl
  | cons p acc ih =>
    obtain ⟨a, b⟩ := p
    simp only [dset]
    rw [if_neg (by rw [h (a, b) (by simp)]; simp), ih (fun p hp => h p (by simp [hp]))]
    rfl

theorem foldl_dset_distinct {l : List (Val × Val)} : ∀ {acc : List (Val × Val)}, Distinct ((acc ++ l).map (·.1)) →
    l.foldl (fun a q => dset a q.1 q.2) acc = acc ++ l := by
  induction l with
  | nil => intro acc _; simp
  | cons p l ih =>
    intro acc h
    obtain ⟨k, x⟩ := p
    rw [List.foldl_cons]
    have hk : ∀ p ∈ acc, pyEq p.1 k = false := by
      intro p hp
      unfold Distinct at h
      rw [List.map_append, List.pairwise_append] at h
      exact h.2.2 p.1 (List.mem_map.2 ⟨p, hp, rfl⟩) k (by simp)
    dsimp only
    rw [dset_new hk, ih (by simpa using h)]
    simp

theorem dset_keys_cases (acc : List (Val × Val)) (k x : Val) : (dset acc k x).map (·.1) = acc.map (·.1) ∨
    ((dset acc k x).map (·.1) = acc.map (·.1) ++ [k] ∧ ∀ p ∈ acc, pyEq p.1 k = false) := by
  induction acc with
  | nil => right; exact ⟨rfl, fun _ h => (by cases h)⟩
  | cons p acc ih =>
    obtain ⟨a, b⟩ := p
    simp only [dset]
    cases hb : pyEq a k with
    | true => left; simp
    | false =>
      rw [if_neg (by simp)]
      rcases ih with h | ⟨h, h'⟩
      · left; simp [h]
      · right
        refine ⟨by simp [h], fun p hp => ?_⟩
        rcases List.mem_cons.1 hp with rfl | hp
        · exact hb
        · exact h' p hp

theorem dset_distinct {acc : List (Val × Val)} (k x : Val) (h : Distinct (acc.map (·.1))) : Distinct ((dset acc k x).map (·.1)) := by
  rcases dset_keys_cases acc k x with h' | ⟨h', hk⟩
  · rw [h']; exact h
  · rw [h']
    unfold Distinct
    rw [List.pairwise_append]
    refine ⟨h, by simp, fun a ha b hb => ?_⟩
    simp at hb; subst hb
    obtain ⟨p, hp, rfl⟩ := List.mem_map.1 ha
    exact hk p hp

theorem foldl_dset_distinct' (l : List (Val × Val)) : ∀ {acc : List (Val × Val)}, Distinct (acc.map (·.1)) →
    Distinct ((l.foldl (fun a q => dset a q.1 q.2) acc).map (·.1)) := by
  induction l with
  | nil => intro acc h; exact h
  | cons p l ih => intro acc h; exact ih (dset_distinct _ _ h)

theorem mem_dset_parts {acc : List (Val × Val)} {k x : Val} {p : Val × Val} (h : p ∈ dset acc k x) :
    (p.1 = k ∨ ∃ q ∈ acc, q.1 = p.1) ∧ (p.2 = x ∨ p ∈ acc) := by
  induction acc with
  | nil => simp [dset] at h; subst h; simp
  | cons q acc ih =>
    obtain ⟨a, b⟩ := q
    simp only [dset] at h
    split at h
    · rcases List.mem_cons.1 h with rfl | h
      · exact ⟨Or.inr ⟨(a, b), by simp, rfl⟩, Or.inl rfl⟩
      · exact ⟨Or.inr ⟨p, by simp [h], rfl⟩, Or.inr (by simp [h])⟩
    · rcases List.mem_cons.1 h with rfl | h
      · exact ⟨Or.inr ⟨_, by simp, rfl⟩, Or.inr (by simp)⟩
      · obtain ⟨h1, h2⟩ := ih h
        refine ⟨?_, ?_⟩
        · rcases h1 with h1 | ⟨q, hq, h1⟩
          · exact Or.inl h1
          · exact Or.inr ⟨q, by simp [hq], h1⟩
        · rcases h2 with h2 | h2
          · exact Or.inl h2
          · exact Or.inr (by simp [h2])

theorem mem_foldl_dset {l : List (Val × Val)} : ∀ {acc : List (Val × Val)} {p : Val × Val}, p ∈ l.foldl (fun a q => dset a q.1 q.2) acc →
    ((∃ q ∈ l, q.1 = p.1) ∨ ∃ q ∈ acc, q.1 = p.1) ∧ ((∃ q ∈ l, q.2 = p.2) ∨ ∃ q ∈ acc, q.2 = p.2) := by
  induction l with
  | nil => intro acc p h; exact ⟨Or.inr ⟨p, h, rfl⟩, Or.inr ⟨p, h, rfl⟩⟩
  | cons q l ih =>
    intro acc p h
    obtain ⟨h1, h2⟩ := ih h
    refine ⟨?_, ?_⟩
    · rcases h1 with ⟨q', hq, h1⟩ | ⟨q', hq, h1⟩
      · exact Or.inl ⟨q', by simp [hq], h1⟩
      · rcases (mem_dset_parts hq).1 with h | ⟨q'', hq'', h⟩
        · exact Or.inl ⟨q, by simp, by rw [← h, h1]⟩
        · exact Or.inr ⟨q'', hq'', by rw [h, h1]⟩
    · rcases h2 with ⟨q', hq, h2⟩ | ⟨q', hq, h2⟩
      · exact Or.inl ⟨q', by simp [hq], h2⟩
      · rcases (mem_dset_parts hq).2 with h | h
        · exact Or.inl ⟨q, by simp, by rw [← h, h2]⟩
        · exact Or.inr ⟨q', h, h2⟩

end TL
