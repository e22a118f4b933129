import Verif.Props.Dicts
import Verif.Props.Simple
/-!
# C15, C17, C26: the Python operations spelled out

The other theorems on iterables, dictionaries and literals mention `iter`, `hash`, `==` and dictionary assignment.  The theorems of this file
describe what these do in terms of the shape of the values, independently of the model's definitions of the operations.
-/

namespace TL

variable {W : World} {C : Config}

/-! ## Specification -/

/-- The elements that iterating over a value gives: those of a list, tuple, set or frozenset, the fields of a NamedTuple, the characters of a string (as
strings of length 1), the bytes of a bytes object (as ints). -/
inductive Elements : Val → List Val → Prop
  | list (xs : List Val) : Elements (.seq .list xs) xs
  | tuple (xs : List Val) : Elements (.seq .tuple xs) xs
  | set (xs : List Val) : Elements (.seq .set xs) xs
  | frozenset (xs : List Val) : Elements (.seq .frozenset xs) xs
  | namedtuple (c : Nat) (fs : List (String × Val)) : Elements (.nt c fs) (fs.map (·.2))
  | str (s : String) : Elements (.str s) (s.toList.map (fun c => .str (String.singleton c)))
  | bytes (bs : List Nat) : Elements (.bytes bs) (bs.map (fun b => .int (Int.ofNat b)))

/-- Lists, sets and dictionaries cannot be members of sets, nor keys of dictionaries. -/
inductive Unhashable : Val → Prop
  | list (xs : List Val) : Unhashable (.seq .list xs)
  | set (xs : List Val) : Unhashable (.seq .set xs)
  | dict (kvs : List (Val × Val)) : Unhashable (.dict kvs)

/-- `v` equals (Python `==`) the literal `l`: numbers are equal when they have the same value whatever their type, everything else that may appear in a
`Literal` equals only itself. -/
inductive LitEq : Val → Val → Prop
  | none : LitEq .none .none
  | str (s : String) : LitEq (.str s) (.str s)
  | bytes (bs : List Nat) : LitEq (.bytes bs) (.bytes bs)
  | enum (e : Nat) (m : String) : LitEq (.enumv e m) (.enumv e m)
  | int (i : Int) : LitEq (.int i) (.int i)
  | bool (b : Bool) : LitEq (.bool b) (.bool b)
  | false_int : LitEq (.bool false) (.int 0)
  | true_int : LitEq (.bool true) (.int 1)
  | int_false : LitEq (.int 0) (.bool false)
  | int_true : LitEq (.int 1) (.bool true)
  | int_float (i : Int) : LitEq (.int i) (.float (.fin (i * 2 ^ 1074)))
  | false_float : LitEq (.bool false) (.float (.fin 0))
  | true_float : LitEq (.bool true) (.float (.fin (2 ^ 1074)))

/-- What Python allows in a `Literal`: None, bools, ints, strings, bytes, enum members. -/
def IsLiteral : Val → Prop
  | .none | .bool _ | .int _ | .str _ | .bytes _ | .enumv _ _ => True
  | _ => False

/-- The dictionary `ds` is the outcome of the assignments `ps` made one after the other: no two keys are equal, every key assigned is there, and every entry
holds the last value assigned to its key. -/
structure LastWins (ps ds : List (Val × Val)) : Prop where
  distinct : ds.Pairwise (fun a b => pyEq a.1 b.1 = false)
  all : ∀ p ∈ ps, ∃ d ∈ ds, d.1 = p.1 ∨ pyEq d.1 p.1 = true
  last : ∀ d ∈ ds, ∃ pre k post, ps = pre ++ (k, d.2) :: post ∧ (d.1 = k ∨ pyEq d.1 k = true) ∧ ∀ q ∈ post, pyEq d.1 q.1 = false
  nothing_new : ∀ d ∈ ds, d.1 ∈ ps.map (·.1)

/-- Equality of the keys is what one expects: two keys equal to a third are equal. -/
def KeysBehave (ps : List (Val × Val)) : Prop :=
  ∀ a ∈ ps, ∀ b ∈ ps, ∀ c ∈ ps, pyEq a.1 c.1 = true → pyEq b.1 c.1 = true → pyEq a.1 b.1 = true

/-! ## Dictionaries -/

theorem dset_mem3 {acc : List (Val × Val)} {k x : Val} {d : Val × Val} (h : d ∈ dset acc k x) :
    (d ∈ acc) ∨ d = (k, x) ∨ (∃ y, (d.1, y) ∈ acc ∧ d.2 = x ∧ pyEq d.1 k = true) := by
  induction acc with
  | nil => simp only [dset, List.mem_singleton] at h; exact Or.inr (Or.inl h)
  | cons a acc ih =>
    obtain ⟨k', v'⟩ := a
    simp only [dset] at h
    by_cases he : pyEq k' k = true
    · rw [if_pos he] at h
      rcases List.mem_cons.1 h with rfl | h
      · exact Or.inr (Or.inr ⟨v', by simp, rfl, he⟩)
      · exact Or.inl (by simp [h])
    · rw [if_neg he] at h
      rcases List.mem_cons.1 h with rfl | h
      · exact Or.inl (by simp)
      · rcases ih h with h | h | ⟨y, h1, h2⟩
        · exact Or.inl (by simp [h])
        · exact Or.inr (Or.inl h)
        · exact Or.inr (Or.inr ⟨y, by simp [h1], h2⟩)

theorem dset_hit {acc : List (Val × Val)} {k x : Val} (h : ∃ d ∈ acc, pyEq d.1 k = true) :
    ∃ a d b, acc = a ++ d :: b ∧ pyEq d.1 k = true ∧ (∀ d ∈ a, pyEq d.1 k = false) ∧ dset acc k x = a ++ (d.1, x) :: b := by
  induction acc with
  | nil => simp at h
  | cons p acc ih =>
    obtain ⟨k', v'⟩ := p
    by_cases he : pyEq k' k = true
    · exact ⟨[], (k', v'), acc, rfl, he, by simp, by simp [dset, he]⟩
    · obtain ⟨d, hd, hdk⟩ := h
      have : d ∈ acc := by
        rcases List.mem_cons.1 hd with rfl | hd
        · exact absurd hdk he
        · exact hd
      obtain ⟨a, d, b, h1, h2, h3, h4⟩ := ih ⟨d, this, hdk⟩
      refine ⟨(k', v') :: a, d, b, by simp [h1], h2, ?_, by simp [dset, he, h4]⟩
      intro q hq
      rcases List.mem_cons.1 hq with rfl | hq
      · simpa using he
      · exact h3 q hq

theorem LastWins.snoc {ps ds : List (Val × Val)} {k x : Val} (hb : KeysBehave (ps ++ [(k, x)])) (h : LastWins ps ds) :
    LastWins (ps ++ [(k, x)]) (dset ds k x) := by
  have hmem : ∀ d ∈ ds, ∃ y, (d.1, y) ∈ ps := fun d hd => by
    obtain ⟨p, hp, he⟩ := List.mem_map.1 (h.nothing_new d hd)
    exact ⟨p.2, by rw [← he]; exact hp⟩
  by_cases hx : ∃ d ∈ ds, pyEq d.1 k = true
  · obtain ⟨a, d, b, hds, hdk, ha, heq⟩ := dset_hit (x := x) hx
    have hpw := h.distinct
    rw [hds] at hpw
    have hbk : ∀ q ∈ b, pyEq q.1 k = false := by
      intro q hq
      cases hc : pyEq q.1 k with
      | false => rfl
      | true =>
        exfalso
        have h1 : pyEq d.1 q.1 = false := (List.pairwise_cons.1 (List.pairwise_append.1 hpw).2.1).1 q hq
        obtain ⟨y1, hy1⟩ := hmem d (by simp [hds])
        obtain ⟨y2, hy2⟩ := hmem q (by simp [hds, hq])
        have := hb (d.1, y1) (by simp [hy1]) (q.1, y2) (by simp [hy2]) (k, x) (by simp) hdk hc
        simp only [h1] at this
        cases this
    rw [heq]
    refine ⟨?_, ?_, ?_, ?_⟩
    · rw [List.pairwise_append, List.pairwise_cons] at hpw ⊢
      refine ⟨hpw.1, hpw.2.1, ?_⟩
      intro p hp q hq
      rcases List.mem_cons.1 hq with rfl | hq
      · exact hpw.2.2 p hp d (by simp)
      · exact hpw.2.2 p hp q (by simp [hq])
    · intro p hp
      rcases List.mem_append.1 hp with hp | hp
      · obtain ⟨q, hq, hqe⟩ := h.all p hp
        rw [hds] at hq
        rcases List.mem_append.1 hq with hq | hq
        · exact ⟨q, by simp [hq], hqe⟩
        · rcases List.mem_cons.1 hq with rfl | hq
          · exact ⟨(q.1, x), by simp, hqe⟩
          · exact ⟨q, by simp [hq], hqe⟩
      · simp only [List.mem_singleton] at hp; subst hp
        exact ⟨(d.1, x), by simp, Or.inr hdk⟩
    · intro q hq
      have keep : ∀ q, q ∈ ds → pyEq q.1 k = false → ∃ pre k1 post, ps ++ [(k, x)] = pre ++ (k1, q.2) :: post ∧
          (q.1 = k1 ∨ pyEq q.1 k1 = true) ∧ ∀ r ∈ post, pyEq q.1 r.1 = false := by
        intro q hq hqk
        obtain ⟨pre, k1, post, h1, h2, h3⟩ := h.last q hq
        refine ⟨pre, k1, post ++ [(k, x)], by simp [h1], h2, ?_⟩
        intro r hr
        rcases List.mem_append.1 hr with hr | hr
        · exact h3 r hr
        · simp only [List.mem_singleton] at hr; subst hr; exact hqk
      rcases List.mem_append.1 hq with hq | hq
      · exact keep q (by simp [hds, hq]) (ha q hq)
      · rcases List.mem_cons.1 hq with rfl | hq
        · exact ⟨ps, k, [], rfl, Or.inr hdk, by simp⟩
        · exact keep q (by simp [hds, hq]) (hbk q hq)
    · intro q hq
      have : q.1 ∈ ds.map (·.1) := by
        rcases List.mem_append.1 hq with hq | hq
        · exact List.mem_map.2 ⟨q, by simp [hds, hq], rfl⟩
        · rcases List.mem_cons.1 hq with rfl | hq
          · exact List.mem_map.2 ⟨d, by simp [hds], rfl⟩
          · exact List.mem_map.2 ⟨q, by simp [hds, hq], rfl⟩
      obtain ⟨d', hd', he⟩ := List.mem_map.1 this
      have := h.nothing_new d' hd'
      rw [he] at this
      simp only [List.map_append, List.mem_append]
      exact Or.inl this
  · have hno : ∀ d ∈ ds, pyEq d.1 k = false := by
      intro d hd
      cases hc : pyEq d.1 k with
      | false => rfl
      | true => exact absurd ⟨d, hd, hc⟩ hx
    have heq : dset ds k x = ds ++ [(k, x)] := by
      clear h hmem hx hb
      induction ds with
      | nil => rfl
      | cons d ds ih =>
        obtain ⟨k', v'⟩ := d
        simp only [dset, hno (k', v') (by simp), Bool.false_eq_true, if_false]
        rw [ih (fun d hd => hno d (by simp [hd]))]
        rfl
    rw [heq]
    refine ⟨?_, ?_, ?_, ?_⟩
    · refine List.pairwise_append.2 ⟨h.distinct, List.pairwise_singleton _ _, ?_⟩
      intro a ha b hb
      simp only [List.mem_singleton] at hb; subst hb
      exact hno a ha
    · intro p hp
      rcases List.mem_append.1 hp with hp | hp
      · obtain ⟨d, hd, he⟩ := h.all p hp
        exact ⟨d, by simp [hd], he⟩
      · simp only [List.mem_singleton] at hp; subst hp
        exact ⟨(k, x), by simp, Or.inl rfl⟩
    · intro q hq
      rcases List.mem_append.1 hq with hq | hq
      · obtain ⟨pre, k1, post, h1, h2, h3⟩ := h.last q hq
        refine ⟨pre, k1, post ++ [(k, x)], by simp [h1], h2, ?_⟩
        intro r hr
        rcases List.mem_append.1 hr with hr | hr
        · exact h3 r hr
        · simp only [List.mem_singleton] at hr; subst hr; exact hno q hq
      · simp only [List.mem_singleton] at hq; subst hq
        exact ⟨ps, k, [], rfl, Or.inl rfl, by simp⟩
    · intro q hq
      rcases List.mem_append.1 hq with hq | hq
      · simp only [List.map_append, List.mem_append]; exact Or.inl (h.nothing_new q hq)
      · simp only [List.mem_singleton] at hq; subst hq; simp

theorem dictOf_lastWins (ps : List (Val × Val)) (hb : KeysBehave ps) : ∃ ds, dictOf ps = .dict ds ∧ LastWins ps ds := by
  refine ⟨ps.foldl (fun acc p => dset acc p.1 p.2) [], rfl, ?_⟩
  suffices H : ∀ (qs done acc : List (Val × Val)), KeysBehave (done ++ qs) → LastWins done acc →
      LastWins (done ++ qs) (qs.foldl (fun acc p => dset acc p.1 p.2) acc) by
    exact H ps [] [] hb ⟨List.Pairwise.nil, by simp, by simp, by simp⟩
  intro qs
  induction qs with
  | nil => intro done acc _ h; simpa using h
  | cons q qs ih =>
    intro done acc hb h
    have hin : ∀ a ∈ done ++ [(q.1, q.2)], a ∈ done ++ q :: qs := by
      intro a ha
      rcases List.mem_append.1 ha with ha | ha
      · exact List.mem_append_left _ ha
      · simp only [List.mem_singleton] at ha; subst ha; simp
    have := ih (done ++ [q]) (dset acc q.1 q.2) (by simpa using hb)
      (h.snoc (fun a ha b hb' c hc => hb a (hin a ha) b (hin b hb') c (hin c hc)))
    simpa using this

/-- **C17** The result of a load into `Dict[K, V]` is the dictionary that assigning the loaded pairs one after the other builds: no two keys are equal, each entry
holds the value of the last pair with that key, all loaded keys are there and there is nothing else. -/
theorem C17_last_wins {s s' : LState} {kt vt : Ty} (hd : C.Usual W (.dict kt vt)) (hs : Reachable W C s) {v r : Val}
    (hsafe : DictSafe C kt vt) (huk : C.Usual W kt) (huv : C.Usual W vt) (h : Loads W C s v (.dict kt vt) r s') :
    ∃ kvs ps ds, DictData C v kvs ∧ Zip2 (PairLoads W C s kt vt) kvs ps ∧ r = .dict ds ∧ (KeysBehave ps → LastWins ps ds) := by
  obtain ⟨kvs, ps, h1, h2, _, h4⟩ := C17_pairs_partial hd hs hsafe huk huv h
  exact ⟨kvs, ps, _, h1, h2, h4, fun hb => by
    obtain ⟨ds, h5, h6⟩ := dictOf_lastWins ps hb
    unfold dictOf at h5
    cases h5
    exact h6⟩

/-- Keys that are strings behave. -/
theorem keysBehave_str {ps : List (Val × Val)} (h : ∀ p ∈ ps, ∃ x, p.1 = .str x) : KeysBehave ps := by
  intro a ha b hb c hc h1 h2
  obtain ⟨x, hx⟩ := h a ha
  obtain ⟨y, hy⟩ := h b hb
  obtain ⟨z, hz⟩ := h c hc
  rw [hx, hz] at h1
  rw [hy, hz] at h2
  rw [hx, hy]
  simp only [pyEq, beq_iff_eq] at *
  rw [h1, h2]

/-- Keys that are numbers behave (including floats equal to ints, and nan, which equals nothing). -/
theorem keysBehave_num {ps : List (Val × Val)} (h : ∀ p ∈ ps, ∃ n, numKey p.1 = some n) : KeysBehave ps := by
  have pf : ∀ x y : PF, PF.eq x y = true ↔ x = y ∧ x ≠ .nan := by
    intro x y
    cases x <;> cases y <;> simp [PF.eq]
  have num : ∀ x y z : Num, x.eq z = true → y.eq z = true → x.eq y = true := by
    intro x y z
    cases x <;> cases y <;> cases z <;> simp only [Num.eq, pf, beq_iff_eq]
    · rintro rfl rfl; rfl
    · rintro ⟨h1, _⟩ ⟨h2, _⟩
      rw [← h2] at h1
      have : ∀ a b : Int, PF.ofInt a = PF.ofInt b → a = b := by
        intro a b h
        injection h with h
        exact Int.eq_of_mul_eq_mul_right (by unfold fscale; exact Int.ne_of_gt (Int.pow_pos (by decide))) h
      exact this _ _ h1
    · rintro rfl ⟨rfl, h⟩; exact ⟨rfl, h⟩
    · rintro ⟨rfl, h⟩ ⟨rfl, h'⟩; exact ⟨rfl, h⟩
    · rintro ⟨rfl, h⟩ rfl; exact ⟨rfl, h⟩
    · rintro ⟨rfl, h⟩ ⟨h1, h'⟩; exact ⟨h1.symm, h⟩
    · rintro ⟨rfl, h⟩ ⟨rfl, h'⟩; exact ⟨rfl, h⟩
    · rintro ⟨rfl, h⟩ ⟨rfl, h'⟩; exact ⟨rfl, h⟩
  have key : ∀ a b : Val, ∀ x y, numKey a = some x → numKey b = some y → pyEq a b = x.eq y := by
    intro a b x y hx hy
    cases a <;> simp only [numKey, Option.some.injEq] at hx <;> first | (subst hx; simp [pyEq, hy]) | cases hx
  intro a ha b hb c hc h1 h2
  obtain ⟨x, hx⟩ := h a ha
  obtain ⟨y, hy⟩ := h b hb
  obtain ⟨z, hz⟩ := h c hc
  rw [key _ _ _ _ hx hz] at h1
  rw [key _ _ _ _ hy hz] at h2
  rw [key _ _ _ _ hx hy]
  exact num x y z h1 h2

/-- Three assignments, two of them to equal keys: `{1: 'a', 2: 'b', True: 'c'}` built one by one is `{1: 'c', 2: 'b'}`. -/
example : LastWins [(.int 1, .str "a"), (.int 2, .str "b"), (.bool true, .str "c")] [(.int 1, .str "c"), (.int 2, .str "b")] := by
  obtain ⟨ds, h1, h2⟩ := dictOf_lastWins [(.int 1, .str "a"), (.int 2, .str "b"), (.bool true, .str "c")]
    (keysBehave_num (by intro p hp; simp at hp; rcases hp with rfl | rfl | rfl <;> exact ⟨_, rfl⟩))
  have : dictOf [(.int 1, .str "a"), (.int 2, .str "b"), (.bool true, .str "c")] = .dict [(.int 1, .str "c"), (.int 2, .str "b")] := rfl
  rw [this] at h1
  cases h1
  exact h2

/-- `{'5': 'a', 5: 'b'}` into `Dict[int, str]`: both keys become 5, the last value wins. -/
example : (load Sample.W Sample.C 5 (.dict [(.str "5", .str "a"), (.int 5, .str "b")]) (.dict (.prim .int) (.prim .str)) (fresh [])).val? =
    some (.dict [(.int 5, .str "b")]) := by decide

/-! ## Literals -/

theorem litEq_iff {l v : Val} (hl : IsLiteral l) : pyEq l v = true ↔ LitEq l v := by
  have hz : ∀ i : Int, (PF.eq (PF.ofInt i) (.fin (i * 2 ^ 1074))) = true := by intro i; simp [PF.eq, PF.ofInt, fscale]
  constructor
  · intro h
    cases l with
    | none => cases v <;> simp [pyEq] at h; exact .none
    | bool b =>
      cases v with
      | bool c => cases b <;> cases c <;> simp [pyEq, numKey, Num.eq] at h <;> exact .bool _
      | int i =>
        cases b <;> simp [pyEq, numKey, Num.eq] at h
        · subst h; exact .false_int
        · subst h; exact .true_int
      | float f =>
        cases f <;> cases b <;> simp [pyEq, numKey, Num.eq, PF.eq, PF.ofInt] at h
        · subst h; exact .false_float
        · subst h; exact .true_float
      | _ => simp [pyEq, numKey] at h
    | int i =>
      cases v with
      | bool c =>
        cases c <;> simp [pyEq, numKey, Num.eq] at h
        · subst h; exact .int_false
        · subst h; exact .int_true
      | int j => simp [pyEq, numKey, Num.eq] at h; subst h; exact .int _
      | float f =>
        cases f <;> simp [pyEq, numKey, Num.eq, PF.eq, PF.ofInt] at h
        subst h; exact .int_float _
      | _ => simp [pyEq, numKey] at h
    | str x => cases v <;> simp [pyEq] at h; subst h; exact .str _
    | bytes x => cases v <;> simp [pyEq] at h; subst h; exact .bytes _
    | enumv e m => cases v <;> simp [pyEq] at h; obtain ⟨rfl, rfl⟩ := h; exact .enum _ _
    | _ => exact hl.elim
  · intro h
    cases h with
    | int_float i => simpa [pyEq, numKey, Num.eq] using hz i
    | false_float => simpa [pyEq, numKey, Num.eq] using hz 0
    | true_float => simpa [pyEq, numKey, Num.eq] using hz 1
    | _ => simp [pyEq, numKey, Num.eq]

/-- **C26** With equality spelled out: loading into `Literal[vs]` returns the value itself iff it is one of the literals, or a number with the value of one. -/
theorem C26_values {s : LState} {vs : List Val} (hd : C.Usual W (.lit vs)) (hs : Reachable W C s) (hvs : ∀ l ∈ vs, IsLiteral l) (v r : Val) :
    (∃ s', Loads W C s v (.lit vs) r s') ↔ r = v ∧ ∃ l ∈ vs, LitEq l v := by
  rw [C26_literal hd hs]
  constructor
  · rintro ⟨h1, l, hl, h2⟩; exact ⟨h1, l, hl, (litEq_iff (hvs l hl)).1 h2⟩
  · rintro ⟨h1, l, hl, h2⟩; exact ⟨h1, l, hl, (litEq_iff (hvs l hl)).2 h2⟩

/-- `1.0` is accepted by `Literal[1]`, and stays a float; `"1"` is not accepted. -/
example : ∃ s', Loads Sample.W Sample.C (fresh []) (.float (.fin (1 * 2 ^ 1074))) (.lit [.str "x", .int 1]) (.float (.fin (1 * 2 ^ 1074))) s' :=
  (C26_values (C := Sample.C) rfl (.new _ _) (by simp [IsLiteral]) _ _).2 ⟨rfl, .int 1, by simp, .int_float 1⟩
example : ¬ ∃ r s', Loads Sample.W Sample.C (fresh []) (.str "1") (.lit [.str "x", .int 1]) r s' := by
  rintro ⟨r, h⟩
  obtain ⟨_, l, hl, he⟩ := (C26_values (C := Sample.C) rfl (.new _ _) (by simp [IsLiteral]) _ _).1 h
  simp only [List.mem_cons, List.not_mem_nil, or_false] at hl
  rcases hl with rfl | rfl
  · generalize hv : (Val.str "1") = v at he
    cases he
    simp at hv
  · cases he

/-! ## Iterables -/

theorem elements_iff {v : Val} {xs : List Val} : (v.isDict = false ∧ pyIter v = some xs) ↔ Elements v xs := by
  constructor
  · rintro ⟨h1, h2⟩
    cases v with
    | seq k ys =>
      simp only [pyIter, Option.some.injEq] at h2; subst h2
      cases k
      · exact .list _
      · exact .tuple _
      · exact .set _
      · exact .frozenset _
    | str x => simp only [pyIter, Option.some.injEq] at h2; subst h2; exact .str _
    | bytes x => simp only [pyIter, Option.some.injEq] at h2; subst h2; exact .bytes _
    | dict kvs => simp [Val.isDict] at h1
    | nt c fs => simp only [pyIter, Option.some.injEq] at h2; subst h2; exact .namedtuple _ _
    | _ => simp [pyIter] at h2
  · intro h
    cases h <;> exact ⟨rfl, rfl⟩

theorem zip2_id {R : Val → Val → Prop} (h : ∀ x y, R x y → y = x) : ∀ {xs ys : List Val}, Zip2 R xs ys → ys = xs := by
  intro xs ys hz
  induction hz with
  | nil => rfl
  | cons h' _ ih => rw [h _ _ h', ih]

theorem Elements.det {v : Val} {xs ys : List Val} (h : Elements v xs) (h' : Elements v ys) : xs = ys := by
  have h1 := (elements_iff.2 h).2
  rw [(elements_iff.2 h').2] at h1
  exact (Option.some.inj h1).symm

/-- **C15** What is accepted, spelled out with the element type that accepts everything: `List[Any]` and `Tuple[Any, ...]` take lists, tuples, sets, frozensets, NamedTuples, strings
and bytes, and nothing else; the result holds the elements themselves. -/
theorem C15_any {s : LState} {k : SeqKind} (hk : k = .list ∨ k = .tuple) (hd : C.Usual W (.coll k .any)) (ha : C.Usual W .any) (hs : Reachable W C s) (v r : Val) :
    (∃ s', Loads W C s v (.coll k .any) r s') ↔ ∃ xs, Elements v xs ∧ r = .seq k xs := by
  replace hk : k.isSet = false := by rcases hk with rfl | rfl <;> rfl
  have fwd : ∀ r, (∃ s', Loads W C s v (.coll k .any) r s') → ∃ xs, Elements v xs ∧ r = .seq k xs := by
    rintro r ⟨s', h⟩
    obtain ⟨h0, xs, pre, post, ys, h1, h2, h3, h4, _, h5⟩ := C15_elements_partial hd hs h
    have hel : ∀ x y, ElemLoads W C s .any x y → y = x := by
      rintro x y (⟨_, h⟩ | ⟨_, s1, s2, he, hl⟩)
      · exact h
      · have := (leaf_loads (hs.coh.ext he) (ha.any) (x := .ok x) (fun _ _ => rfl) y).1 ⟨s2, hl⟩
        simpa [eq_comm] using this
    have hno : post = [] := by
      rcases h5 with h5 | ⟨x, post', e, _, ⟨s1, s2, he, n, hh, hp, hr⟩, _⟩
      · exact h5
      · rw [ha.any] at hp; cases hp
        cases n with
        | zero => cases hr
        | succ n => cases hr
    subst hno
    refine ⟨xs, elements_iff.1 ⟨h0, h1⟩, ?_⟩
    rw [h4, zip2_id hel h3, h2, List.append_nil]
    unfold collect
    rw [if_neg (by simp [hk])]
  refine ⟨fwd r, ?_⟩
  rintro ⟨xs, hx, rfl⟩
  obtain ⟨h0, h1⟩ := elements_iff.2 hx
  have hall : ∀ x ∈ xs, ∀ s1, Ext W C s s1 → ∃ y s2,
      (PassThrough C .any x ∧ y = x ∨ ¬ PassThrough C .any x ∧ Loads W C s1 x .any y s2) ∧ (k.isSet = true → W.hash y = true) := by
    intro x _ s1 he
    obtain ⟨s2, h2⟩ := (leaf_loads (hs.coh.ext he) (ha.any) (x := .ok x) (fun _ _ => rfl) x).2 rfl
    refine ⟨x, s2, Or.inr ⟨?_, h2⟩, by simp [hk]⟩
    rintro (⟨_, h, _⟩ | ⟨_, h, _⟩) <;> cases h
  obtain ⟨r, s', h⟩ := C15_complete hd hs h0 h1 ha.any hall
  obtain ⟨xs', h2, rfl⟩ := fwd r ⟨s', h⟩
  rw [hx.det h2]
  exact ⟨s', h⟩

/-- A string is an iterable of its characters; a number is not iterable. -/
example : (∃ s', Loads Sample.W Sample.C (fresh []) (.str "ab") (.coll .list .any) (.list [.str "a", .str "b"]) s') ∧
    ¬ ∃ r s', Loads Sample.W Sample.C (fresh []) (.int 5) (.coll .list .any) r s' := by
  constructor
  · exact (C15_any (C := Sample.C) (Or.inl rfl) rfl rfl (.new _ _) _ _).2 ⟨_, .str "ab", rfl⟩
  · rintro ⟨r, h⟩
    obtain ⟨xs, h, _⟩ := (C15_any (C := Sample.C) (Or.inl rfl) rfl rfl (.new _ _) _ _).1 h
    cases h

theorem Unhashable.not {v : Val} (h : Unhashable v) : W.hash v = false := by cases h <;> rfl

/-- **C15** The sets that a load returns hold no list, set or dictionary. -/
theorem C15_hashable {s s' : LState} {k : SeqKind} {et : Ty} (hk : k = .set ∨ k = .frozenset) (hd : C.Usual W (.coll k et)) (hs : Reachable W C s) {v r : Val}
    (h : Loads W C s v (.coll k et) r s') : ∃ zs, r = .seq k zs ∧ ∀ z ∈ zs, ¬ Unhashable z := by
  replace hk : k.isSet = true := by rcases hk with rfl | rfl <;> rfl
  obtain ⟨_, xs, pre, post, ys, _, _, _, h4, h5, _⟩ := C15_elements_partial hd hs h
  refine ⟨_, h4, ?_⟩
  intro z hz hu
  unfold collect at hz
  rw [if_pos hk] at hz
  rcases (setAdd_foldl_spec ys [] List.Pairwise.nil).2.1 z hz with h | h
  · cases h
  · have := h5 hk z h
    rw [hu.not] at this
    cases this

/-- **C17** Nor have the dictionaries such keys. -/
theorem C17_hashable {s s' : LState} {kt vt : Ty} (hd : C.Usual W (.dict kt vt)) (hs : Reachable W C s) {v r : Val}
    (hsafe : DictSafe C kt vt) (huk : C.Usual W kt) (huv : C.Usual W vt) (h : Loads W C s v (.dict kt vt) r s') :
    ∃ ds, r = .dict ds ∧ ∀ d ∈ ds, ¬ Unhashable d.1 := by
  obtain ⟨kvs, ps, h1, h2, h3, h4⟩ := C17_pairs_partial hd hs hsafe huk huv h
  refine ⟨_, h4, ?_⟩
  have : ∀ (ps acc : List (Val × Val)), ∀ d ∈ ps.foldl (fun acc p => dset acc p.1 p.2) acc, d.1 ∈ acc.map (·.1) ∨ d.1 ∈ ps.map (·.1) := by
    intro ps
    induction ps with
    | nil => intro acc d hd; exact Or.inl (List.mem_map.2 ⟨d, hd, rfl⟩)
    | cons p ps ih =>
      intro acc d hd
      rcases ih _ d hd with h | h
      · obtain ⟨q, hq, he⟩ := List.mem_map.1 h
        rcases dset_mem3 hq with h' | h' | ⟨y, h', _⟩
        · exact Or.inl (List.mem_map.2 ⟨q, h', he⟩)
        · subst h'; exact Or.inr (by simp [← he])
        · exact Or.inl (List.mem_map.2 ⟨_, h', he⟩)
      · exact Or.inr (by simp [h])
  intro d hd hu
  rcases this ps [] d hd with h | h
  · simp at h
  · obtain ⟨q, hq, he⟩ := List.mem_map.1 h
    have := h3 q hq
    rw [he, hu.not] at this
    cases this

/-- `[[1]]` into `Set[List[int]]` is refused, `[(1,)]` into `Set[Tuple[int, ...]]` is not. -/
example : ((load Sample.W Sample.C 9 (.list [.list [.int 1]]) (.coll .set (.coll .list (.prim .int))) (fresh [])).err?.map (·.cls) = some .tlType) ∧
    (load Sample.W Sample.C 9 (.list [.list [.int 1]]) (.coll .set (.coll .tuple (.prim .int))) (fresh [])).val? = some (.seq .set [.tuple [.int 1]]) := by decide

/-- The instances of the basic classes: bools are ints too. -/
inductive BasicOf : Prim → Val → Prop
  | none : BasicOf .none .none
  | bool (b : Bool) : BasicOf .bool (.bool b)
  | bool_int (b : Bool) : BasicOf .int (.bool b)
  | int (i : Int) : BasicOf .int (.int i)
  | float (f : PF) : BasicOf .float (.float f)
  | str (x : String) : BasicOf .str (.str x)
  | bytes (bs : List Nat) : BasicOf .bytes (.bytes bs)

theorem iterElems_pass {rec : Rec} {h : Handler} {k : SeqKind} {et : Ty} {v : Val} {t : Ty} (hk : k.isSet = false) (xs : List Val) :
    ∀ (i : Nat) (acc : List Val) (s : LState), (∀ x ∈ xs, PassThrough C et x) →
      iterElems W C rec h k et v t xs i acc s = .ok (acc ++ xs) s := by
  induction xs with
  | nil => intro i acc s _; simp [iterElems]
  | cons x xs ih =>
    intro i acc s hx
    unfold iterElems
    rw [M.handle_apply, iterElem_pass _ _ (hx x (by simp))]
    have : collAdd W k acc x = .ok (acc ++ [x]) := by cases k <;> first | rfl | cases hk
    change (match collAdd W k acc x with
        | .error c => M.throw (elemError v t i (.plain c))
        | .ok acc' => iterElems W C rec h k et v t xs (i + 1) acc') s = _
    rw [this]
    dsimp only
    rw [ih (i + 1) (acc ++ [x]) s (fun y hy => hx y (by simp [hy]))]
    simp

theorem coll_pass {s : LState} {k : SeqKind} {et : Ty} (hk : k.isSet = false) (hd : C.Usual W (.coll k et)) {h : Handler} (hp : pick W C et = .ok h)
    (hs : Reachable W C s) {v : Val} {xs : List Val} (hv : Elements v xs) (hx : ∀ x ∈ xs, PassThrough C et x) :
    (∃ s', Loads W C s v (.coll k et) (.seq k xs) s') ∧ (∀ r s', Loads W C s v (.coll k et) r s' → r = .seq k xs) := by
  obtain ⟨h0, h1⟩ := elements_iff.2 hv
  have hc := hs.coh.ext (cacheReg_ext (s := s) (hd.coll))
  have key : ∀ n, ∃ s', run W C (n + 1) (collHandler k) v (.coll k et) (cacheReg W (.coll k et) (collHandler k) s) = .ok (.seq k xs) s' := by
    intro n
    simp only [run, step_coll, iterload, h0, Bool.false_eq_true, if_false, M.bind_apply, resolve_eq hc, hp, h1, iterElems_pass hk xs _ _ _ hx]
    exact ⟨_, rfl⟩
  constructor
  · obtain ⟨s', h⟩ := key 0
    exact ⟨s', (loads_iff hs.coh).2 ⟨1, _, hd.coll, h⟩⟩
  · intro r s' h
    obtain ⟨n, hh, hp', hr⟩ := (loads_iff hs.coh).1 h
    rw [hd.coll] at hp'; cases hp'
    cases n with
    | zero => cases hr
    | succ n =>
      obtain ⟨s'', h''⟩ := key n
      rw [h''] at hr
      cases hr
      rfl

/-- **C15** A list (tuple, …) whose elements are all instances of the basic type `p` — bools counting as ints — is loaded into `List[p]` or `Tuple[p, ...]` as it is:
no element is converted. -/
theorem C15_instances {s : LState} {k : SeqKind} {p : Prim} (hk : k = .list ∨ k = .tuple) (hd : C.Usual W (.coll k (.prim p))) (hp : C.Usual W (.prim p)) (hb : p ∈ C.basictypes)
    (hs : Reachable W C s) {v : Val} {xs : List Val} (hv : Elements v xs) (hx : ∀ x ∈ xs, BasicOf p x) :
    (∃ s', Loads W C s v (.coll k (.prim p)) (.seq k xs) s') ∧ (∀ r s', Loads W C s v (.coll k (.prim p)) r s' → r = .seq k xs) := by
  replace hk : k.isSet = false := by rcases hk with rfl | rfl <;> rfl
  have hpk : ∃ h, pick W C (.prim p) = .ok h := by
    by_cases hn : p = .none
    · subst hn; exact ⟨_, hp.none⟩
    · exact ⟨_, hp.basic hb hn⟩
  obtain ⟨h, hpk⟩ := hpk
  exact coll_pass hk hd hpk hs hv (fun x h => Or.inl ⟨p, rfl, hb, by cases hx x h <;> rfl⟩)

/-- `(True, 2)` into `List[int]` is `[True, 2]`. -/
example : ∃ s', Loads Sample.W Sample.C (fresh []) (.tuple [.bool true, .int 2]) (.coll .list (.prim .int)) (.list [.bool true, .int 2]) s' :=
  (C15_instances (C := Sample.C) (Or.inl rfl) rfl rfl (by decide) (.new _ _) (.tuple _)
    (by intro x hx; simp at hx; rcases hx with rfl | rfl; exact .bool_int _; exact .int _)).1

/-- The values whose exact class is the basic class `p`: here a bool is no int. -/
inductive ExactlyOf : Prim → Val → Prop
  | none : ExactlyOf .none .none
  | bool (b : Bool) : ExactlyOf .bool (.bool b)
  | int (i : Int) : ExactlyOf .int (.int i)
  | float (f : PF) : ExactlyOf .float (.float f)
  | str (x : String) : ExactlyOf .str (.str x)
  | bytes (bs : List Nat) : ExactlyOf .bytes (.bytes bs)

/-- **C15** And for unions of basic types, elements whose exact class is a member of the union are not converted. -/
theorem C15_union_instances {s : LState} {k : SeqKind} {ps : List Prim} (hk : k = .list ∨ k = .tuple) (hd : C.Usual W (.coll k (.union (ps.map .prim))))
    (hp : C.Usual W (.union (ps.map .prim))) (hb : ∀ p ∈ ps, p ∈ C.basictypes)
    (hs : Reachable W C s) {v : Val} {xs : List Val} (hv : Elements v xs) (hx : ∀ x ∈ xs, ∃ p ∈ ps, ExactlyOf p x) :
    (∃ s', Loads W C s v (.coll k (.union (ps.map .prim))) (.seq k xs) s') ∧
      (∀ r s', Loads W C s v (.coll k (.union (ps.map .prim))) r s' → r = .seq k xs) := by
  replace hk : k.isSet = false := by rcases hk with rfl | rfl <;> rfl
  refine coll_pass hk hd hp.union hs hv (fun x h => Or.inr ⟨_, rfl, ?_, ?_⟩)
  · intro u hu
    obtain ⟨p, hp, rfl⟩ := List.mem_map.1 hu
    simp [Config.isBasic, hb p hp]
  · obtain ⟨p, hp, he⟩ := hx x h
    refine List.mem_map.2 ⟨p, hp, ?_⟩
    cases he <;> rfl

/-- `[True, 'a']` into `List[Union[str, bool]]`. -/
example : ∃ s', Loads Sample.W Sample.C (fresh []) (.list [.bool true, .str "a"]) (.coll .list (.union [.prim .str, .prim .bool])) (.list [.bool true, .str "a"]) s' :=
  (C15_union_instances (C := Sample.C) (ps := [.str, .bool]) (Or.inl rfl) rfl rfl (by decide) (.new _ _) (.list _)
    (by intro x hx; simp at hx; rcases hx with rfl | rfl; exact ⟨.bool, by simp, .bool _⟩; exact ⟨.str, by simp, .str _⟩)).1

end TL
