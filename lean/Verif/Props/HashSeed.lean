import Verif.Spec.HashSeed
import Verif.Props.Dumping
import Verif.Props.ReadBack
/-!
# C79: the hash seed
-/

namespace TL

variable {W : World} {D : DConfig} {order : List String → List String} {hp : ∀ ns, (order ns).Perm ns} {pop : List String → Nat}

theorem inside_reseed {v x : Val} (h : Inside (W.reseed order hp pop) v x) : Inside W v x := by
  induction h with
  | self => exact .self
  | elem _ h ih => exact .elem ih h
  | key _ h ih => exact .key ih h
  | val _ h ih => exact .val ih h
  | arg _ h ih => exact .arg ih h
  | item _ h ih => exact .item ih h
  | attr _ h ih => exact .attr ih h
  | member _ h ih => exact .member ih h
  | source _ ih => exact .source ih

theorem Legal.reseed {v : Val} (h : Legal W v) : Legal (W.reseed order hp pop) v := fun x hx => by
  have := h x (inside_reseed hx)
  cases x <;> exact this

theorem legalDefaults_reseed (h : W.LegalDefaults) : (W.reseed order hp pop).LegalDefaults := fun c f hf d hd => (h c f hf d hd).reseed

theorem SameButOrder.hash {W : World} {a b : Val} (h : SameButOrder a b) (ha : W.hash a = true) : a = b := by
  cases h with
  | refl => rfl
  | list => cases ha
  | dict => cases ha

/-- Writing the same keys one after the other gives dictionaries with the same keys in the same order. -/
theorem fold_same {l : List (Val × Val × Val)} (h : ∀ q ∈ l, SameButOrder q.2.1 q.2.2) :
    ∀ {a : List (Val × Val × Val)}, (∀ q ∈ a, SameButOrder q.2.1 q.2.2) → ∃ b : List (Val × Val × Val), (∀ q ∈ b, SameButOrder q.2.1 q.2.2) ∧
      (l.map (fun q => (q.1, q.2.1))).foldl (fun acc p => dset acc p.1 p.2) (a.map (fun q => (q.1, q.2.1))) = b.map (fun q => (q.1, q.2.1)) ∧
      (l.map (fun q => (q.1, q.2.2))).foldl (fun acc p => dset acc p.1 p.2) (a.map (fun q => (q.1, q.2.2))) = b.map (fun q => (q.1, q.2.2)) := by
  have one : ∀ (q : Val × Val × Val), SameButOrder q.2.1 q.2.2 → ∀ {a : List (Val × Val × Val)}, (∀ q ∈ a, SameButOrder q.2.1 q.2.2) →
      ∃ b : List (Val × Val × Val), (∀ q ∈ b, SameButOrder q.2.1 q.2.2) ∧
      dset (a.map (fun q => (q.1, q.2.1))) q.1 q.2.1 = b.map (fun q => (q.1, q.2.1)) ∧ dset (a.map (fun q => (q.1, q.2.2))) q.1 q.2.2 = b.map (fun q => (q.1, q.2.2)) := by
    intro q hq a
    induction a with
    | nil => intro _; exact ⟨[q], by simpa using hq, rfl, rfl⟩
    | cons p a ih =>
      intro ha
      obtain ⟨b, h1, h2, h3⟩ := ih (fun q hq => ha q (by simp [hq]))
      by_cases he : pyEq p.1 q.1 = true
      · refine ⟨(p.1, q.2) :: a, ?_, ?_, ?_⟩
        · intro x hx
          rcases List.mem_cons.1 hx with rfl | hx
          · exact hq
          · exact ha x (by simp [hx])
        · simp [dset, he]
        · simp [dset, he]
      · refine ⟨p :: b, ?_, ?_, ?_⟩
        · intro x hx
          rcases List.mem_cons.1 hx with rfl | hx
          · exact ha x (by simp)
          · exact h1 x hx
        · simp [dset, he, h2]
        · simp [dset, he, h3]
  induction l with
  | nil => intro a ha; exact ⟨a, ha, rfl, rfl⟩
  | cons q l ih =>
    intro a ha
    obtain ⟨b, h1, h2, h3⟩ := one q (h q (by simp)) ha
    obtain ⟨b', h4, h5, h6⟩ := ih (fun q hq => h q (by simp [hq])) h1
    exact ⟨b', h4, by simp only [List.map_cons, List.foldl_cons]; rw [h2, h5], by simp only [List.map_cons, List.foldl_cons]; rw [h3, h6]⟩

theorem SameButOrder.dictOf {l : List (Val × Val × Val)} (h : ∀ q ∈ l, SameButOrder q.2.1 q.2.2) :
    SameButOrder (dictOf (l.map (fun q => (q.1, q.2.1)))) (dictOf (l.map (fun q => (q.1, q.2.2)))) := by
  obtain ⟨b, h1, h2, h3⟩ := fold_same h (a := []) (by simp)
  unfold TL.dictOf
  rw [show ([] : List (Val × Val)) = ([] : List (Val × Val × Val)).map (fun q => (q.1, q.2.1)) from rfl, h2,
    show ([] : List (Val × Val × Val)).map (fun q => (q.1, q.2.1)) = ([] : List (Val × Val × Val)).map (fun q => (q.1, q.2.2)) from rfl, h3]
  exact .dict h1 (.refl _)

/-- Names under which the fields of dataclasses are written do not clash. -/
def World.KeysApart (W : World) (D : DConfig) : Prop := ∀ c, (W.cls c).kind = .dataclass → ((W.cls c).fields.map (fieldKey D .dataclass)).Nodup

theorem choose_list {α β : Type} {R : α → β → Prop} {l : List α} (h : ∀ x ∈ l, ∃ y, R x y) : ∃ m : List (α × β), m.map (·.1) = l ∧ ∀ q ∈ m, R q.1 q.2 := by
  induction l with
  | nil => exact ⟨[], rfl, by simp⟩
  | cons x l ih =>
    obtain ⟨y, hy⟩ := h x (by simp)
    obtain ⟨m, h1, h2⟩ := ih (fun x hx => h x (by simp [hx]))
    exact ⟨(x, y) :: m, by simp [h1], by simpa using ⟨hy, fun a b hab => h2 (a, b) hab⟩⟩

theorem Dumped.reseed (hk : W.KeysApart D) {v : Val} {a : Ty} {d : Val} (h : Dumped W D v a d) :
    ∃ d', Dumped (W.reseed order hp pop) D v a d' ∧ SameButOrder d d' := by
  induction h with
  | basic h1 h2 => exact ⟨_, .basic h1 h2, .refl _⟩
  | @seq k t l h1 h2 ih =>
    obtain ⟨m, rfl, hm⟩ := choose_list ih
    have := Dumped.seq (W := W.reseed order hp pop) (C := D) (t := t) (k := k) (l := m.map (fun q => (q.1.1, q.2))) h1 (fun q hq => by
      obtain ⟨x, hx, rfl⟩ := List.mem_map.1 hq; exact (hm x hx).1)
    refine ⟨_, by rw [List.map_map] at this ⊢; exact this, ?_⟩
    have := SameButOrder.list (l := m.map (fun q => (q.1.2, q.2))) (fun q hq => by obtain ⟨x, hx, rfl⟩ := List.mem_map.1 hq; exact (hm x hx).2)
    simp only [List.map_map] at this ⊢; exact this
  | copy h1 h2 => exact ⟨_, .copy h1 h2, .refl _⟩
  | @dict t l h1 h2 h3 ih1 ih2 =>
    obtain ⟨m, rfl, hm⟩ := choose_list ih2
    have h := Dumped.dict (W := W.reseed order hp pop) (C := D) (t := t) (l := m.map (fun q => (q.1.1, (q.1.2.1, q.2)))) (fun q hq => by
        obtain ⟨x, hx, rfl⟩ := List.mem_map.1 hq
        have hx1 : x.1 ∈ m.map (·.1) := List.mem_map.2 ⟨x, hx, rfl⟩
        obtain ⟨y, hy1, hy2⟩ := ih1 x.1 hx1
        rw [← hy2.hash (h3 _ hx1)] at hy1; exact hy1)
      (fun q hq => by obtain ⟨x, hx, rfl⟩ := List.mem_map.1 hq; exact (hm x hx).1)
      (fun q hq => by obtain ⟨x, hx, rfl⟩ := List.mem_map.1 hq; exact h3 x.1 (List.mem_map.2 ⟨x, hx, rfl⟩))
    refine ⟨_, by rw [List.map_map] at h ⊢; exact h, ?_⟩
    have h := SameButOrder.dictOf (l := m.map (fun q => (q.1.2.1, q.1.2.2, q.2))) (fun q hq => by obtain ⟨x, hx, rfl⟩ := List.mem_map.1 hq; exact (hm x hx).2)
    simp only [List.map_map] at h ⊢; exact h
  | @obj v t c l m ho h1 h2 h3 h4 h5 ih =>
    -- the two results of every shown field
    obtain ⟨k, rfl, hk1⟩ := choose_list (l := l) (R := fun q o => (q.2.2 = none ↔ o = none) ∧
      ∀ y, o = some y → Dumped (W.reseed order hp pop) D q.2.1 (fieldAnnotation (W.cls c).kind q.1) y ∧ ∃ x, q.2.2 = some x ∧ SameButOrder x y) (fun q hq => by
        cases hy : q.2.2 with
        | none => exact ⟨none, by simp, by simp⟩
        | some y =>
          obtain ⟨y', h6, h7⟩ := ih q hq y hy
          exact ⟨some y', by simp, fun z hz => by cases hz; exact ⟨h6, y, rfl, h7⟩⟩)
    obtain ⟨m1, hm1, rfl⟩ := perm_map_exists h4 (l := k) rfl
    have hords : ∃ m2 : List ((Field × Val × Option Val) × Option Val), m2.Perm k ∧ m2.map (·.1.1.name) = writeOrder (W.reseed order hp pop) c ∧
        ((W.cls c).kind ≠ .dataclass → m2 = m1) := by
      by_cases hkd : (W.cls c).kind = .dataclass
      · obtain ⟨m2, h6, h7⟩ := perm_map_exists (hp ((W.cls c).fields.map (·.name))) (l := k) (f := fun q => q.1.1.name) (by rw [h1]; simp)
        exact ⟨m2, h6, h7.trans (by unfold writeOrder; exact (if_pos hkd).symm), fun h => absurd hkd h⟩
      · refine ⟨m1, hm1, ?_, fun _ => rfl⟩
        have : writeOrder (W.reseed order hp pop) c = writeOrder W c := by
          unfold writeOrder; rw [if_neg hkd]; exact if_neg hkd
        rw [this, ← h5, List.map_map]; rfl
    obtain ⟨m2, hm2, ho2, heq⟩ := hords
    have h6 := Dumped.obj (W := W.reseed order hp pop) (C := D) (t := t) (c := c) (v := v) (l := k.map (fun q => (q.1.1, q.1.2.1, q.2)))
      (m := m2.map (fun q => (q.1.1, q.1.2.1, q.2))) (by rw [List.map_map] at ho ⊢; exact ho) (by rw [List.map_map] at h1 ⊢; exact h1)
      (fun q hq => by
        obtain ⟨x, hx, rfl⟩ := List.mem_map.1 hq
        exact (hk1 x hx).1.symm.trans (h2 x.1 (List.mem_map.2 ⟨x, hx, rfl⟩)))
      (fun q hq y hy => by
        obtain ⟨x, hx, rfl⟩ := List.mem_map.1 hq
        exact ((hk1 x hx).2 y hy).1)
      (hm2.map _) (by rw [List.map_map]; exact ho2)
    refine ⟨_, h6, ?_⟩
    -- the entries, with both results
    let e : ((Field × Val × Option Val) × Option Val) → Option (Val × Val × Val) := fun q =>
      match q.1.2.2, q.2 with
      | some x, some y => some (.str (fieldKey D (W.cls c).kind q.1.1), x, y)
      | _, _ => none
    have he1 : ∀ {n : List ((Field × Val × Option Val) × Option Val)}, (∀ q ∈ n, q ∈ k) →
        (n.map (·.1)).filterMap (fun q => q.2.2.map (fun y => ((.str (fieldKey D (W.cls c).kind q.1), y) : Val × Val))) = (n.filterMap e).map (fun q => (q.1, q.2.1)) := by
      intro n hn
      induction n with
      | nil => rfl
      | cons q n ihn =>
        have hq := hk1 q (hn q (by simp))
        rw [List.map_cons, List.filterMap_cons, List.filterMap_cons, ihn (fun q hq => hn q (by simp [hq]))]
        obtain ⟨⟨f, x, o⟩, o'⟩ := q
        cases o with
        | none => rfl
        | some y => cases o' with
          | none => exact absurd (hq.1.2 rfl) (by simp)
          | some y' => rfl
    have he2 : ∀ {n : List ((Field × Val × Option Val) × Option Val)}, (∀ q ∈ n, q ∈ k) →
        (n.map (fun q => (q.1.1, q.1.2.1, q.2))).filterMap (fun q => q.2.2.map (fun y => ((.str (fieldKey D (W.cls c).kind q.1), y) : Val × Val))) =
          (n.filterMap e).map (fun q => (q.1, q.2.2)) := by
      intro n hn
      induction n with
      | nil => rfl
      | cons q n ihn =>
        have hq := hk1 q (hn q (by simp))
        rw [List.map_cons, List.filterMap_cons, List.filterMap_cons, ihn (fun q hq => hn q (by simp [hq]))]
        obtain ⟨⟨f, x, o⟩, o'⟩ := q
        cases o with
        | none => cases o' with
          | none => rfl
          | some y' => exact absurd (hq.1.1 rfl) (by simp)
        | some y => cases o' with
          | none => rfl
          | some y' => rfl
    have hsame : ∀ {n : List ((Field × Val × Option Val) × Option Val)}, (∀ q ∈ n, q ∈ k) → ∀ q ∈ n.filterMap e, SameButOrder q.2.1 q.2.2 := by
      intro n hn q hq
      obtain ⟨⟨⟨f, x, o⟩, o'⟩, hx, hxe⟩ := List.mem_filterMap.1 hq
      have hx' := hk1 _ (hn _ hx)
      cases o with
      | none => cases hxe
      | some y => cases o' with
        | none => cases hxe
        | some y' =>
          cases hxe
          obtain ⟨z, hz, h⟩ := (hx'.2 y' rfl).2
          cases hz; exact h
    show SameButOrder _ (TL.dictOf ((m2.map (fun q => (q.1.1, q.1.2.1, q.2))).filterMap (fun q => q.2.2.map (fun y => ((.str (fieldKey D (W.cls c).kind q.1), y) : Val × Val)))))
    rw [he1 (fun q hq => hm1.mem_iff.1 hq), he2 (fun q hq => hm2.mem_iff.1 hq)]
    by_cases hkd : (W.cls c).kind = .dataclass
    · have hdist : ∀ {n : List ((Field × Val × Option Val) × Option Val)}, n.Perm k → ((n.filterMap e).map (·.1)).Nodup := by
        intro n hn
        have h7 : (n.map (fun q => (Val.str (fieldKey D (W.cls c).kind q.1.1)))).Nodup := by
          refine ((hn.map _).nodup_iff).2 ?_
          have h8 := hk c hkd
          rw [h1, List.map_map, List.map_map] at h8
          have h9 := List.Pairwise.map (S := fun a b => a ≠ b) Val.str (fun a b hab he => hab (Val.str.inj he)) h8
          rw [List.map_map] at h9
          rw [hkd]; exact h9
        have : ((n.filterMap e).map (·.1)).Sublist (n.map (fun q => (Val.str (fieldKey D (W.cls c).kind q.1.1)))) := by
          clear h7 hn
          induction n with
          | nil => exact .slnil
          | cons q n ihn =>
            rw [List.filterMap_cons, List.map_cons]
            obtain ⟨⟨f, x, o⟩, o'⟩ := q
            cases o with
            | none => exact .cons _ ihn
            | some y => cases o' with
              | none => exact .cons _ ihn
              | some y' => exact .cons_cons _ ihn
        exact this.nodup h7
      have hstr : ∀ {n : List ((Field × Val × Option Val) × Option Val)}, ∀ q ∈ n.filterMap e, ∃ s, q.1 = .str s := by
        intro n q hq
        obtain ⟨⟨⟨f, x, o⟩, o'⟩, hx, hxe⟩ := List.mem_filterMap.1 hq
        cases o with
        | none => cases hxe
        | some y => cases o' with
          | none => cases hxe
          | some y' => cases hxe; exact ⟨_, rfl⟩
      have hapart : ∀ {n : List ((Field × Val × Option Val) × Option Val)}, n.Perm k → Distinct ((n.filterMap e).map (·.1)) := by
        intro n hn
        have h7 := hdist hn
        refine List.Pairwise.imp_of_mem ?_ h7
        intro a b ha hb hab
        obtain ⟨p, hp', rfl⟩ := List.mem_map.1 ha
        obtain ⟨q, hq', rfl⟩ := List.mem_map.1 hb
        obtain ⟨s1, e1⟩ := hstr p hp'
        obtain ⟨s2, e2⟩ := hstr q hq'
        rw [e1, e2] at hab ⊢
        simp only [ne_eq, Val.str.injEq] at hab
        simp [pyEq, hab]
      unfold TL.dictOf
      rw [foldl_pairs (by rw [List.map_map]; exact hapart hm1), foldl_pairs (by rw [List.map_map]; exact hapart hm2)]
      exact .dict (hsame (fun q hq => hm1.mem_iff.1 hq)) (((hm2.trans hm1.symm).filterMap e).map _)
    · rw [heq hkd]
      exact .dictOf (hsame (fun q hq => hm1.mem_iff.1 hq))
  | enum h1 _ ih =>
    obtain ⟨d', h2, h3⟩ := ih
    exact ⟨d', .enum h1 h2, h3⟩
  | iso h1 h2 => exact ⟨_, .iso h1 h2, .refl _⟩
  | date h => exact ⟨_, .date h, .refl _⟩
  | time h => exact ⟨_, .time h, .refl _⟩
  | datetime h => exact ⟨_, .datetime h, .refl _⟩
  | timedelta => exact ⟨_, .timedelta, .refl _⟩
  | pattern => exact ⟨_, .pattern, .refl _⟩
  | strcons h => exact ⟨_, .strcons h, .refl _⟩

/-- **C79** Whatever the string hashes of the process are, and whatever the dumper did before, `dump` returns the same data except for the order of the keys. -/
theorem C79_dump (hd : D.Default) (hw : W.LegalDefaults) (hk : W.KeysApart D) {s1 s2 s1' s2' : DState} (hs1 : DReachable W D s1)
    (hs2 : DReachable (W.reseed order hp pop) D s2) {v : Val} (hv : Legal W v) {t : Ty} {r1 r2 : Val} (h1 : Dumps W D s1 v t r1 s1')
    (h2 : Dumps (W.reseed order hp pop) D s2 v t r2 s2') : SameButOrder r1 r2 := by
  obtain ⟨d', h3, h4⟩ := Dumped.reseed (order := order) (hp := hp) (pop := pop) hk ((C75_exact hd hw hs1 hv).1 ⟨_, h1⟩)
  have h5 := (C75_exact hd (legalDefaults_reseed hw) hs2 hv.reseed).1 ⟨_, h2⟩
  rw [C75_unique hd (legalDefaults_reseed hw) hv.reseed h5 h3]
  exact h4

/-- **C79** A value that can be dumped in one process can be dumped in every other one. -/
theorem C79_dumpable (hd : D.Default) (hw : W.LegalDefaults) (hk : W.KeysApart D) {s1 s2 s1' : DState} (hs1 : DReachable W D s1)
    (hs2 : DReachable (W.reseed order hp pop) D s2) {v : Val} (hv : Legal W v) {t : Ty} {r1 : Val} (h1 : Dumps W D s1 v t r1 s1') :
    ∃ r2 s2', Dumps (W.reseed order hp pop) D s2 v t r2 s2' := by
  obtain ⟨d', h3, _⟩ := Dumped.reseed (order := order) (hp := hp) (pop := pop) hk ((C75_exact hd hw hs1 hv).1 ⟨_, h1⟩)
  obtain ⟨s', h⟩ := (C75_exact hd (legalDefaults_reseed hw) hs2 hv.reseed).2 h3
  exact ⟨d', s', h⟩

namespace Sample

theorem keysApart : Sample.W.KeysApart Sample.D := by
  intro c h
  match c with
  | 0 | 1 | 2 | 3 | 4 | 5 | 6 | 7 | 8 => first | cases h; done | decide
  | n + 9 => exact List.Pairwise.nil

/-- The program of `Sample.W` where sets are iterated backwards. -/
def WR : World := Sample.W.reseed List.reverse (fun ns => List.reverse_perm ns) (fun _ => 1)

end Sample

-- `P(x=1, z='q', y=5)` is dumped in two orders, after anything else that was dumped
example (s s' : DState) (hs : DReachable Sample.WR Sample.D s) (r : Val) (h : Dumps Sample.WR Sample.D s Sample.p0 .any r s') :
    SameButOrder (.dict [(.str "x", .int 1), (.str "zed", .str "q")]) r ∧
      ∃ s', Dumps Sample.WR Sample.D {} Sample.p0 .any (.dict [(.str "zed", .str "q"), (.str "x", .int 1)]) s' :=
  ⟨C79_dump (s1' := _) (show Sample.D.Default from rfl) Sample.legalDefaults Sample.keysApart .new hs Sample.p0_legal ⟨5, rfl⟩ h, _, 5, rfl⟩

example (s : DState) (hs : DReachable Sample.WR Sample.D s) : ∃ r s', Dumps Sample.WR Sample.D s Sample.p0 .any r s' :=
  C79_dumpable (s1' := _) (show Sample.D.Default from rfl) Sample.legalDefaults Sample.keysApart .new hs Sample.p0_legal ⟨5, rfl⟩

/-- A dataclass with two fields of the same name in the data: `a: int` and `b: int = field(metadata={'name': 'a'})`. -/
def Sample.clsClash : ClassDef := { kind := .dataclass, name := "Clash", fields := [{ name := "a", ty := .prim .int }, { name := "b", ty := .prim .int, metadata := [("name", "a")] }] }

/-- The program with that class. -/
def Sample.WClash : World := { Sample.W with cls := fun _ => Sample.clsClash }

/-- **C79** Where two fields of a dataclass have the same name in the data, the value of one of them is lost, and which one depends on the string hashes of
the process: `dump(Clash(a=1, b=2))` is `{'a': 2}` or `{'a': 1}`. -/
theorem C79_clash_counterexample : ∃ (W : World) (D : DConfig) (order : List String → List String) (hp : ∀ ns, (order ns).Perm ns) (pop : List String → Nat)
    (v r1 r2 : Val), D.Default ∧ Legal W v ∧ (∃ s', Dumps W D {} v .any r1 s') ∧ (∃ s', Dumps (W.reseed order hp pop) D {} v .any r2 s') ∧ ¬ SameButOrder r1 r2 := by
  refine ⟨Sample.WClash, Sample.D, List.reverse, fun ns => List.reverse_perm ns, fun _ => 0, .inst 0 [("a", .int 1), ("b", .int 2)],
    .dict [(.str "a", .int 2)], .dict [(.str "a", .int 1)], rfl, ?_, ⟨_, 5, rfl⟩, ⟨_, 5, rfl⟩, ?_⟩
  · refine .of_parts ⟨Or.inl rfl, rfl, by decide⟩ (fun x hx => ?_)
    cases hx with
    | attr h =>
      simp only [List.mem_cons, Prod.mk.injEq, List.not_mem_nil, or_false] at h
      rcases h with ⟨_, rfl⟩ | ⟨_, rfl⟩ <;> exact DumpPrim.legal_basic (p := .int) rfl
  · intro h
    generalize hx : Val.dict [(Val.str "a", Val.int 2)] = x at h
    generalize hy : Val.dict [(Val.str "a", Val.int 1)] = y at h
    cases h with
    | refl => rw [← hy] at hx; cases hx
    | list => cases hx
    | @dict l m h1 h2 =>
      cases hy
      injection hx with hx
      match l, hx with
      | [q], hx =>
        simp only [List.map_cons, List.map_nil, List.cons.injEq, Prod.mk.injEq, and_true] at hx
        have h3 := List.perm_singleton.1 (h2.symm)
        simp only [List.map_cons, List.map_nil, List.cons.injEq, Prod.mk.injEq, and_true] at h3
        have h4 := h1 q (by simp)
        rw [← hx.2, h3.2] at h4
        cases h4
      | q :: q' :: l, hx => simp at hx

end TL
