import Verif.Props.Unions
/-!
# C50: discriminators
-/

namespace TL

variable {W : World} {C : Config}

/-- The values allowed inside `Literal[...]` by Python (PEP 586). -/
def LitVal : Val → Bool
  | .none | .bool _ | .int _ | .str _ | .bytes _ | .enumv _ _ => true
  | _ => false

/-- Every Literal in the fields of the program holds values allowed by Python. -/
def World.LegalLiterals (W : World) : Prop :=
  ∀ c, ∀ f ∈ (W.cls c).fields, ∀ vs, f.ty = .lit vs → ∀ l ∈ vs, LitVal l = true

/-- The fields of a class have distinct names. -/
def World.DistinctFields (W : World) : Prop := ∀ c, ((W.cls c).fields.map (·.name)).Nodup

theorem PF.eq_iff {a b : PF} : PF.eq a b = true → a = b := by
  cases a <;> cases b <;> simp [PF.eq]

/-- The number denoted by a literal. -/
def litInt : Val → Option Int
  | .bool b => some (if b then 1 else 0)
  | .int i => some i
  | _ => none

/-- Python equality of literals: same number, or same object. -/
theorem pyEq_lit {a b : Val} (ha : LitVal a = true) (hb : LitVal b = true) :
    pyEq a b = true ↔ (litInt a = litInt b ∧ (litInt a = none → a = b)) := by
  cases a <;> cases b <;> simp_all [LitVal, pyEq, numKey, Num.eq, litInt] <;> (try split) <;> (try split) <;> simp_all

theorem pyEq_lit_sym {a b : Val} (ha : LitVal a = true) (hb : LitVal b = true) (h : pyEq a b = true) : pyEq b a = true := by
  rw [pyEq_lit hb ha]
  obtain ⟨h1, h2⟩ := (pyEq_lit ha hb).1 h
  exact ⟨h1.symm, fun h' => (h2 (by rw [h1, h'])).symm⟩

theorem litInt_numKey {a : Val} {i : Int} (h : litInt a = some i) : numKey a = some (.int i) := by
  cases a <;> simp [litInt] at h <;> simp [numKey, h]

theorem pyEq_lit_trans {a b c : Val} (ha : LitVal a = true) (hb : LitVal b = true) (h : pyEq a b = true)
    (h' : pyEq b c = true) : pyEq a c = true := by
  obtain ⟨h1, h2⟩ := (pyEq_lit ha hb).1 h
  cases hn : litInt a with
  | none => rw [h2 hn]; exact h'
  | some i =>
    have hi : numKey a = some (.int i) := litInt_numKey hn
    have hj : numKey b = some (.int i) := litInt_numKey (by rw [← h1]; exact hn)
    have key : ∀ x, numKey x = some (Num.int i) → ∀ c, pyEq x c = (match numKey c with
        | some y => Num.eq (.int i) y
        | none => false) := by
      clear hi hj
      intro x hx c
      cases x with
      | bool b => simp only [pyEq]; simp only [numKey, Option.some.injEq] at hx; rw [hx]; cases numKey c <;> rfl
      | int j => simp only [pyEq]; simp only [numKey, Option.some.injEq] at hx; rw [hx]; cases numKey c <;> rfl
      | float f => simp [numKey] at hx
      | _ => simp [numKey] at hx
    rw [key a hi]; rw [key b hj] at h'; exact h'

theorem hash_of_eq_lit {l x : Val} (hl : LitVal l = true) (h : pyEq l x = true) : W.hash x = true := by
  unfold World.hash
  cases l <;> simp [LitVal] at hl <;> cases x <;> simp_all [pyEq, numKey, hashable]

theorem setAdd_covers {l : Val} {x : Val} (vs : List Val) : ∀ acc, (∀ w ∈ vs, LitVal w = true) → (∀ w ∈ acc, LitVal w = true) →
    l ∈ acc ∨ l ∈ vs → pyEq l x = true → ∃ l' ∈ vs.foldl setAdd acc, pyEq l' x = true := by
  induction vs with
  | nil => intro acc _ _ h he; simp at h; exact ⟨l, h, he⟩
  | cons y vs ih =>
    intro acc hv ha h he
    have hy := hv y (by simp)
    have hacc' : ∀ w ∈ setAdd acc y, LitVal w = true := by
      intro w hw; unfold setAdd at hw; split at hw
      · exact ha w hw
      · rcases List.mem_append.1 hw with hw | hw
        · exact ha w hw
        · simp at hw; rw [hw]; exact hy
    have hv' : ∀ w ∈ vs, LitVal w = true := fun w hw => hv w (by simp [hw])
    simp only [List.foldl_cons]
    have hsub : ∀ w ∈ acc, w ∈ setAdd acc y := by
      intro w hw; unfold setAdd; split
      · exact hw
      · simp [hw]
    rcases h with h | h
    · exact ih _ hv' hacc' (Or.inl (hsub l h)) he
    · rcases List.mem_cons.1 h with rfl | h
      · by_cases hin : pyIn l acc = true
        · unfold pyIn at hin
          simp only [List.any_eq_true] at hin
          obtain ⟨z, hz, hze⟩ := hin
          have hz' := hsub z hz
          have hzx := pyEq_lit_trans (ha z hz) hy hze he
          -- z is in the accumulator
          have : ∀ us acc, z ∈ acc → z ∈ List.foldl setAdd acc us := by
            intro us
            induction us with
            | nil => intro acc h; exact h
            | cons u us ih2 =>
              intro acc h
              refine ih2 _ ?_
              unfold setAdd; split
              · exact h
              · simp [h]
          exact ⟨z, this vs _ hz', hzx⟩
        · refine ih _ hv' hacc' (Or.inl ?_) he
          unfold setAdd; rw [if_neg hin]; simp
      · exact ih _ hv' hacc' (Or.inr h) he

/-- What the table must satisfy for the value `x` to select `p`. -/
structure Selects (x : Val) (p : Ty) (table : List (Val × Ty)) : Prop where
  lit : ∀ k q, (k, q) ∈ table → LitVal k = true
  sel : ∀ k q, (k, q) ∈ table → pyEq k x = true → q = p

theorem mem_dset {α : Type} {table : List (Val × α)} {l : Val} {u : α} {k : Val} {q : α}
    (h : (k, q) ∈ dset table l u) : (k, q) ∈ table ∨ (q = u ∧ (k = l ∨ (pyEq k l = true ∧ ∃ q', (k, q') ∈ table))) := by
  induction table with
  | nil => simp [dset] at h; right; exact ⟨h.2, Or.inl h.1⟩
  | cons e table ih =>
    obtain ⟨a, b⟩ := e
    simp only [dset] at h
    split at h
    · rename_i he
      rcases List.mem_cons.1 h with h | h
      · cases h; right; exact ⟨rfl, Or.inr ⟨he, b, by simp⟩⟩
      · left; simp [h]
    · rcases List.mem_cons.1 h with h | h
      · cases h; left; simp
      · rcases ih h with h | ⟨h1, h2 | ⟨h3, q', h4⟩⟩
        · left; simp [h]
        · right; exact ⟨h1, Or.inl h2⟩
        · right; exact ⟨h1, Or.inr ⟨h3, q', by simp [h4]⟩⟩

theorem dset_has {α : Type} (table : List (Val × α)) (l : Val) (u : α) :
    ∃ k q, (k, q) ∈ dset table l u ∧ (k = l ∨ pyEq k l = true) := by
  induction table with
  | nil => exact ⟨l, u, by simp [dset], Or.inl rfl⟩
  | cons e table ih =>
    obtain ⟨a, b⟩ := e
    simp only [dset]
    split
    · rename_i he; exact ⟨a, u, by simp, Or.inr he⟩
    · obtain ⟨k, q, h1, h2⟩ := ih; exact ⟨k, q, by simp [h1], h2⟩

theorem dset_keeps {α : Type} {table : List (Val × α)} {k : Val} {q : α} (l : Val) (u : α) (h : (k, q) ∈ table) :
    ∃ q', (k, q') ∈ dset table l u := by
  induction table with
  | nil => cases h
  | cons e table ih =>
    obtain ⟨a, b⟩ := e
    simp only [dset]
    split
    · rcases List.mem_cons.1 h with h | h
      · cases h; exact ⟨u, by simp⟩
      · exact ⟨q, by simp [h]⟩
    · rcases List.mem_cons.1 h with h | h
      · cases h; exact ⟨q, by simp⟩
      · obtain ⟨q', h'⟩ := ih h; exact ⟨q', by simp [h']⟩

theorem Selects.dset {x : Val} {p u : Ty} {table : List (Val × Ty)} {l : Val} (h : Selects x p table) (hl : LitVal l = true)
    (hu : u ≠ p → pyEq l x = false) : Selects x p (dset table l u) where
  lit k q hm := by
    rcases mem_dset hm with h' | ⟨_, rfl | ⟨_, q', h'⟩⟩
    · exact h.lit k q h'
    · exact hl
    · exact h.lit k q' h'
  sel k q hm he := by
    rcases mem_dset hm with h' | ⟨rfl, h'⟩
    · exact h.sel k q h' he
    · by_cases hp : q = p
      · exact hp
      · exfalso
        have hlx := hu hp
        rcases h' with rfl | ⟨hkl, q', hq'⟩
        · rw [he] at hlx; cases hlx
        · have := pyEq_lit_trans hl (h.lit k q' hq') (pyEq_lit_sym (h.lit k q' hq') hl hkl) he
          rw [this] at hlx; cases hlx

theorem Selects.fold {x : Val} {p u : Ty} (ls : List Val) : ∀ table, Selects x p table → (∀ l ∈ ls, LitVal l = true) →
    (u ≠ p → ∀ l ∈ ls, pyEq l x = false) →
    Selects x p (ls.foldl (fun acc l => TL.dset acc l u) table) ∧
    ((∃ k q, (k, q) ∈ table ∧ pyEq k x = true) ∨ (∃ l ∈ ls, pyEq l x = true) →
      ∃ k q, (k, q) ∈ (ls.foldl (fun acc l => TL.dset acc l u) table) ∧ pyEq k x = true) := by
  induction ls with
  | nil =>
    intro t h _ _
    refine ⟨h, ?_⟩
    rintro (h | ⟨l, hl, _⟩)
    · exact h
    · cases hl
  | cons l ls ih =>
    intro t h hl hu
    have hs := Selects.dset (u := u) h (hl l (by simp)) (fun hne => hu hne l (by simp))
    obtain ⟨i1, i2⟩ := ih (TL.dset t l u) hs (fun w hw => hl w (by simp [hw])) (fun hne w hw => hu hne w (by simp [hw]))
    refine ⟨i1, ?_⟩
    rintro (⟨k, q, hm, he⟩ | ⟨w, hw, he⟩)
    · obtain ⟨q', hm'⟩ := dset_keeps l u hm
      exact i2 (Or.inl ⟨k, q', hm', he⟩)
    · rcases List.mem_cons.1 hw with rfl | hw
      · obtain ⟨k, q, hm, hk⟩ := dset_has t w u
        refine i2 (Or.inl ⟨k, q, hm, ?_⟩)
        rcases hk with rfl | hk
        · exact he
        · exact pyEq_lit_trans (hs.lit k q hm) (hl w (by simp)) hk he
      · exact i2 (Or.inr ⟨w, hw, he⟩)

theorem Selects.data {x : Val} {p : Ty} {key : String} (data : List (Ty × List (String × List Val))) :
    ∀ table, Selects x p table →
    (∀ d ∈ data, ∀ l ∈ (aget d.2 key).getD [], LitVal l = true ∧ (d.1 ≠ p → pyEq l x = false)) →
    Selects x p (data.foldl (fun acc d => ((aget d.2 key).getD []).foldl (fun acc l => TL.dset acc l d.1) acc) table) ∧
    ((∃ k q, (k, q) ∈ table ∧ pyEq k x = true) ∨ (∃ d ∈ data, ∃ l ∈ (aget d.2 key).getD [], pyEq l x = true) →
      ∃ k q, (k, q) ∈ (data.foldl (fun acc d => ((aget d.2 key).getD []).foldl (fun acc l => TL.dset acc l d.1) acc) table) ∧
        pyEq k x = true) := by
  induction data with
  | nil =>
    intro t h _
    refine ⟨h, ?_⟩
    rintro (h | ⟨l, hl, _⟩)
    · exact h
    · cases hl
  | cons d data ih =>
    intro t h hd
    obtain ⟨f1, f2⟩ := Selects.fold (u := d.1) ((aget d.2 key).getD []) t h (fun l hl => (hd d (by simp) l hl).1)
      (fun hne l hl => (hd d (by simp) l hl).2 hne)
    obtain ⟨i1, i2⟩ := ih _ f1 (fun d' hd' => hd d' (by simp [hd']))
    refine ⟨i1, ?_⟩
    rintro (h' | ⟨d', hd', l, hl, he⟩)
    · exact i2 (Or.inl (f2 (Or.inl h')))
    · rcases List.mem_cons.1 hd' with rfl | hd'
      · exact i2 (Or.inl (f2 (Or.inr ⟨l, hl, he⟩)))
      · exact i2 (Or.inr ⟨d', hd', l, hl, he⟩)

theorem Selects.get {x : Val} {p : Ty} {table : List (Val × Ty)} (h : Selects x p table)
    (hex : ∃ k q, (k, q) ∈ table ∧ pyEq k x = true) : dget table x = some p := by
  unfold dget
  cases hf : table.find? (fun e => pyEq e.1 x) with
  | none =>
    obtain ⟨k, q, hm, he⟩ := hex
    have := List.find?_eq_none.1 hf (k, q) hm
    simp [he] at this
  | some e =>
    have h1 := List.mem_of_find?_eq_some hf
    have h2 := List.find?_some hf
    simp only [Option.map_some, Option.some.injEq]
    exact h.sel e.1 e.2 h1 (by simpa using h2)

/-- The value the data holds under the name `k` (None when absent). -/
def tagOf (kvs : List (Val × Val)) (k : String) : Val := (dget kvs (.str k)).getD .none

/-- The data designates `p` and no other member: members have a common Literal field, and under every common Literal field
the tag of the data equals a literal of `p` and no literal of another member. -/
structure PointsAt (W : World) (kvs : List (Val × Val)) (ts : List Ty) (p : Ty) : Prop where
  mem : p ∈ ts
  common : ∃ k, ∀ u ∈ ts, HasLiteralField W u k
  mine : ∀ k, (∀ u ∈ ts, HasLiteralField W u k) → ∃ l, LiteralField W p k l ∧ pyEq l (tagOf kvs k) = true
  others : ∀ k, (∀ u ∈ ts, HasLiteralField W u k) → ∀ u ∈ ts, u ≠ p → ∀ l, LiteralField W u k l → pyEq l (tagOf kvs k) = false

/-- The data designates `p` and no other member, and the Literal fields are those that the members declare themselves
(see `C50_inherited_counterexample`). -/
structure DesignatesOnly (W : World) (kvs : List (Val × Val)) (ts : List Ty) (p : Ty) : Prop extends PointsAt W kvs ts p where
  own : ∀ u ∈ ts, OwnLiterals W u

theorem DesignatesOnly.perm {kvs : List (Val × Val)} {ts us : List Ty} {p : Ty} (h : DesignatesOnly W kvs ts p) (hp : us.Perm ts) : DesignatesOnly W kvs us p where
  mem := hp.mem_iff.2 h.mem
  own u hu := h.own u (hp.mem_iff.1 hu)
  common := let ⟨k, hk⟩ := h.common; ⟨k, fun u hu => hk u (hp.mem_iff.1 hu)⟩
  mine k hk := h.mine k (fun u hu => hk u (hp.mem_iff.2 hu))
  others k hk u hu := h.others k (fun u hu => hk u (hp.mem_iff.2 hu)) u (hp.mem_iff.1 hu)

/-- With distinct field names and no hidden literal, the table entry of a class is the Literal of its field. -/
theorem aget_discriminator (hn : W.NoHiddenLiteral) (hdf : W.DistinctFields) {c : Nat} {f : Field} {vs : List Val} {rew : List Nat}
    (hf : f ∈ (W.cls c).fields) (hty : f.ty = .lit vs) (ho : OwnLiterals W (.obj c)) :
    aget (discriminatorliterals W rew (.obj c)) f.name = some (vs.foldl setAdd []) := by
  have hnr : f.notRequired = false := by
    cases h : f.notRequired with
    | false => rfl
    | true => have := hn c f hf h; rw [hty] at this; cases this
  have hdecl : f.declared = true := ho c rfl f hf (by rw [hty]; rfl)
  have : ∀ fs : List Field, (fs.map (·.name)).Nodup → f ∈ fs →
      aget (fs.filterMap (fun f => if f.notRequired && !rew.contains c || !f.declared then none
        else (literalvalues f.ty).map (fun vs => (f.name, vs)))) f.name = some (vs.foldl setAdd []) := by
    intro fs
    induction fs with
    | nil => intro _ h; cases h
    | cons g fs ih =>
      intro hnd hm
      simp only [List.map_cons, List.nodup_cons] at hnd
      rcases List.mem_cons.1 hm with rfl | hm
      · simp [hnr, hty, hdecl, literalvalues, aget]
      · have hne : g.name ≠ f.name := by
          intro h; apply hnd.1; rw [h]; exact List.mem_map_of_mem hm
        have := ih hnd.2 hm
        simp only [List.filterMap_cons]
        split
        · exact this
        · rename_i y hy
          split at hy
          · cases hy
          · cases hl : literalvalues g.ty with
            | none => simp [hl] at hy
            | some ws => simp [hl] at hy; subst hy; simp only [aget, if_neg hne]; exact this
  exact this _ (hdf c) hf

theorem mkDisc_designates (hn : W.NoHiddenLiteral) (hll : W.LegalLiterals) (hdf : W.DistinctFields) {kvs : List (Val × Val)}
    {ts : List Ty} {p : Ty} (h : DesignatesOnly W kvs ts p) (rew : List Nat) :
    ∃ key table, mkDisc W rew ts = some (key, table) ∧ table.isEmpty = false ∧ W.hash (tagOf kvs key) = true ∧
      dget table (tagOf kvs key) = some p := by
  obtain ⟨k0, hk0⟩ := h.common
  have hcommon : k0 ∈ commonKeys ((ts.map (fun t => (t, discriminatorliterals W rew t))).map (·.2)) := by
    have hall : ∀ d ∈ (ts.map (fun t => (t, discriminatorliterals W rew t))).map (·.2), k0 ∈ d.map (·.1) := by
      intro d hd
      simp only [List.map_map, List.mem_map] at hd
      obtain ⟨u, hu, rfl⟩ := hd
      obtain ⟨c, f, vs, rfl, hf, hname, hty⟩ := hk0 u hu
      have := aget_discriminator (rew := rew) hn hdf hf hty (h.own _ hu)
      rw [hname] at this
      exact (aget_isSome_iff _ _).1 (by simp [this])
    cases hts : (ts.map (fun t => (t, discriminatorliterals W rew t))).map (·.2) with
    | nil => have := h.mem; simp only [List.map_map, List.map_eq_nil_iff] at hts; rw [hts] at this; cases this
    | cons d ds =>
      rw [hts] at hall
      simp only [commonKeys, List.mem_filter, List.all_eq_true]
      refine ⟨hall d (by simp), fun d' hd' => ?_⟩
      simpa using hall d' (by simp [hd'])
  cases hm : mkDisc W rew ts with
  | none =>
    unfold mkDisc at hm
    dsimp only at hm
    split at hm
    · rename_i hnil; rw [hnil] at hcommon; cases hcommon
    · cases hm
  | some kt =>
    obtain ⟨key, table⟩ := kt
    obtain ⟨hk, htab⟩ := mkDisc_key hm
    obtain ⟨l, ⟨c, f, vs, rfl, hf, hname, hty, hl⟩, hleq⟩ := h.mine key hk
    have hsel := Selects.data (x := tagOf kvs key) (p := .obj c) (key := key)
      (ts.map (fun t => (t, discriminatorliterals W rew t))) [] ⟨fun _ _ h => (by cases h), fun _ _ h => (by cases h)⟩ (by
        intro d hd l' hl'
        obtain ⟨u, hu, rfl⟩ := List.mem_map.1 hd
        cases ha : aget (discriminatorliterals W rew u) key with
        | none => rw [ha] at hl'; cases hl'
        | some ws =>
          rw [ha] at hl'
          have hlf := (discriminatorliterals_field (aget_mem ha)).2 l' hl'
          refine ⟨?_, fun hne => h.others key hk u hu hne l' hlf⟩
          obtain ⟨c', f', vs', _, hf', _, hty', hl''⟩ := hlf
          exact hll c' f' hf' vs' hty' l' hl'')
    have hlit : ∀ w ∈ vs, LitVal w = true := hll c f hf vs hty
    have hex := hsel.2 (Or.inr ⟨(.obj c, discriminatorliterals W rew (.obj c)), List.mem_map.2 ⟨_, h.mem, rfl⟩, by
      have := aget_discriminator (rew := rew) hn hdf hf hty (h.own _ h.mem)
      rw [hname] at this
      rw [this]
      exact setAdd_covers vs [] hlit (fun _ h => by cases h) (Or.inr hl) hleq⟩)
    refine ⟨key, table, rfl, ?_, hash_of_eq_lit (hlit l hl) hleq, ?_⟩
    · obtain ⟨k, q, hm', _⟩ := hex
      rw [htab]
      unfold literalTable
      cases hcase : List.foldl (fun acc p => List.foldl (fun acc l => TL.dset acc l p.1) acc ((aget p.2 key).getD [])) []
        (ts.map (fun t => (t, discriminatorliterals W rew t))) with
      | nil => rw [hcase] at hm'; cases hm'
      | cons => rfl
    · rw [htab]; exact hsel.1.get hex

theorem unionOrder_designates (hn : W.NoHiddenLiteral) (hll : W.LegalLiterals) (hdf : W.DistinctFields) {kvs : List (Val × Val)}
    {ts : List Ty} {p : Ty} (h : DesignatesOnly W kvs ts p) {s : LState} (hc : Coh W C s) :
    ∃ s', Ext W C s s' ∧ unionOrder W C (.dict kvs) ts s = .ok (p :: (preference C ts).erase p) s' := by
  have hd := post_discCached (C := C) (ts := ts) hc
  have : ∃ d s', discCached W ts s = .ok d s' := by
    cases hm : discCached W ts s with
    | ok d s' => exact ⟨d, s', rfl⟩
    | err e s' => exact (hd.err hm).elim
    | div =>
      exfalso
      have hnd : NoDiv (discCached W ts) := by
        unfold discCached
        repeat' (first | exact NoDiv.pure _ | exact NoDiv.throw _ | exact NoDiv.get | exact NoDiv.modify _ | refine NoDiv.bind ?_ (fun _ => ?_) | split)
      exact hnd s hm
  obtain ⟨d, s', hm⟩ := this
  obtain ⟨he, rew, us, hperm, rfl⟩ := hd.ok hm
  obtain ⟨key, table, h1, h2, h3, h4⟩ := mkDisc_designates hn hll hdf (h.perm hperm) rew
  refine ⟨s', he, ?_⟩
  unfold unionOrder
  simp only [M.bind_apply, hm, h1, h2]
  unfold tagOf at h3 h4
  simp only [h3, h4]
  rfl

/-- **C50** If the data designates one member of the union only, through every Literal field shared by the members, and this member
accepts the data (whatever the caches hold), then the union load returns, and whatever it returns is the result of that member. -/
theorem C50_designated {s : LState} {ts : List Ty} (hd : C.Usual W (.union ts)) (hs : Reachable W C s) (hn : W.NoHiddenLiteral) (hll : W.LegalLiterals)
    (hdf : W.DistinctFields) (hdbg : C.uniondebugconflict = false) {kvs : List (Val × Val)} {p : Ty}
    (h : DesignatesOnly W kvs ts p) (hacc : ∀ s1, Ext W C s s1 → ∃ r s2, Loads W C s1 (.dict kvs) p r s2) :
    (∃ r s', Loads W C s (.dict kvs) (.union ts) r s') ∧
    ∀ r s', Loads W C s (.dict kvs) (.union ts) r s' → AcceptsAs W C s (.dict kvs) p r := by
  have hp := hd.union
  have he : Ext W C s (cacheReg W (.union ts) .unionload s) := cacheReg_ext hp
  have hc1 := hs.coh.ext he
  obtain ⟨s1, he1, ho⟩ := unionOrder_designates (C := C) hn hll hdf h hc1
  have hc2 := hc1.ext he1
  have e2 := he.trans he1
  have hpk : ∃ hh, pick W C p = .ok hh := by
    obtain ⟨r, s2, hl⟩ := hacc _ e2
    obtain ⟨n, hh, hpp, _⟩ := (loads_iff hc2).1 hl
    exact ⟨hh, hpp⟩
  obtain ⟨hh, hpk⟩ := hpk
  have e3 := e2.trans (cacheIdx_ext (s := s1) hpk)
  obtain ⟨r, s2, hl⟩ := hacc _ e3
  have hc3 := hs.coh.ext e3
  obtain ⟨n, hh', hpp, hr⟩ := (loads_iff hc3).1 hl
  rw [hpk] at hpp; cases hpp
  have hreg : cacheReg W p hh (cacheIdx p hh s1) = cacheIdx p hh s1 := by
    unfold cacheReg; rw [cacheIdx_idx hc2 hpk]
  rw [hreg] at hr
  have hmain : Loads W C s (.dict kvs) (.union ts) r s2 := by
    refine (loads_iff hs.coh).2 ⟨n + 1, _, hp, ?_⟩
    simp only [run, step, unionload]
    rw [if_neg (by simp [typeOf, Config.isBasic])]
    simp only [M.bind_apply, ho, unionTry, M.handle_apply, resolve_eq hc2, hpk, hr, hdbg]
    rfl
  refine ⟨⟨r, s2, hmain⟩, fun r' s' h' => ?_⟩
  obtain ⟨rfl, rfl⟩ := h'.unique hmain
  exact ⟨_, _, e3, hl⟩

/-- **C11** A member designated by the data is tried first, the others follow in the order of preference: when all members refuse (with or without `uniondebugconflict`),
the exceptions are listed in this order. -/
theorem C11_designated_first {s s' : LState} {ts : List Ty} (hd : C.Usual W (.union ts)) (hs : Reachable W C s) (hn : W.NoHiddenLiteral) (hll : W.LegalLiterals)
    (hdf : W.DistinctFields) {kvs : List (Val × Val)} {p : Ty} (h : DesignatesOnly W kvs ts p) {e : Exc}
    (hr : Raises W C s (.dict kvs) (.union ts) e s') (hcls : e.cls = .tlValue) :
    Zip2 (fun u (x : Exc) => x.isTL = true ∧ ∃ rest, x.trace = ⟨.dict kvs, .union ts, some (.union u)⟩ :: rest) (p :: (preference C ts).erase p) e.subs := by
  have hp := hd.union
  have he : Ext W C s (cacheReg W (.union ts) .unionload s) := cacheReg_ext hp
  obtain ⟨s1, he1, ho⟩ := unionOrder_designates (C := C) hn hll hdf h (hs.coh.ext he)
  rcases (raises_iff hs.coh).1 hr with ⟨n, hh, e', hpp, hrun, rfl⟩ | ⟨c, hpp, _⟩
  · rw [hp] at hpp; cases hpp
    cases n with
    | zero => cases hrun
    | succ n =>
      simp only [run, step, unionload] at hrun
      rw [if_neg (by simp [typeOf, Config.isBasic])] at hrun
      simp only [M.bind_apply, ho] at hrun
      have hpost := post_unionTry (n := n) (v := .dict kvs) (t := .union ts) (s0 := s) (p :: (preference C ts).erase p) 0 .none [] s1
        (he.trans he1) (hs.coh.ext (he.trans he1))
      cases hl : unionTry W C (run W C n) (.dict kvs) (.union ts) (p :: (preference C ts).erase p) 0 .none [] s1 with
      | div => rw [hl] at hrun; cases hrun
      | err e2 s2 =>
        rw [hl] at hrun
        cases hrun
        have := (hpost.err hl).1
        simp [loadExc, this] at hcls
      | ok q s2 =>
        obtain ⟨c, r, es⟩ := q
        rw [hl] at hrun
        obtain ⟨⟨pre, post, os, hpre, hz, h1, h2, h3, h4, h5⟩, _⟩ := hpost.ok hl
        simp only [Nat.zero_add, List.nil_append] at h1 h2
        dsimp only at hrun
        by_cases hc1 : c = 1
        · rw [if_pos hc1] at hrun; cases hrun
        · rw [if_neg hc1] at hrun
          by_cases hc0 : c = 0
          · rw [if_pos hc0] at hrun
            cases hrun
            have h0 : oks os = [] := List.length_eq_zero_iff.1 (by omega)
            have hpost0 : post = [] := by
              cases hdbg : C.uniondebugconflict with
              | true => exact h4 hdbg
              | false =>
                rcases h5 hdbg with ⟨h6, _⟩ | ⟨x, hx, _⟩
                · exact h6
                · rw [h0] at hx; cases hx
            subst hpost0
            obtain ⟨_, b⟩ := zip_oks_nil hz h0
            simp only [loadExc, mkExcSubs, Exc.isTL_mk, ExcClass.isTL, if_true, Exc.subs_push, Exc.subs_mk]
            rw [hpre, h2, List.append_nil]
            exact b
          · rw [if_neg hc0] at hrun
            cases hrun
            simp [loadExc, mkExcSubs, ExcClass.isTL] at hcls
  · rw [hp] at hpp; cases hpp

theorem Sample.legalLiterals : Sample.W.LegalLiterals := by
  intro c f hf vs hty l hl
  simp only [Sample.W] at hf
  unfold Sample.cls at hf
  split at hf <;> simp only [Sample.clsP, Sample.clsN, Sample.clsT, Sample.clsA, Sample.clsB, Sample.clsL1, Sample.clsL2,
    Sample.clsNode, Sample.clsHolder, List.mem_cons, List.not_mem_nil, or_false] at hf
  all_goals (try (rcases hf with rfl | rfl | rfl)) <;> (try (rcases hf with rfl | rfl)) <;> (try subst hf) <;> (try cases hty) <;>
    (try (simp at hl; subst hl; rfl))

theorem Sample.distinctFields : Sample.W.DistinctFields := by
  intro c
  simp only [Sample.W]
  unfold Sample.cls
  split <;> first | decide | simp

/-- The tag `"two"` designates L2 in `Union[L1, L2]`, whatever else the classes are made of. -/
theorem Sample.designates {W : World} {kvs : List (Val × Val)} {f5 g5 f6 g6 : Field} (h5 : (W.cls 5).fields = [f5, g5]) (h6 : (W.cls 6).fields = [f6, g6])
    (n5 : f5.name = "tag") (n6 : f6.name = "tag") (t5 : f5.ty = .lit [.str "one"]) (t6 : f6.ty = .lit [.str "two"]) (hg : ∀ vs, g5.ty ≠ .lit vs)
    (hk : tagOf kvs "tag" = .str "two") : PointsAt W kvs [.obj 5, .obj 6] (.obj 6) := by
  have key : ∀ k, HasLiteralField W (.obj 5) k → k = "tag" := by
    rintro k ⟨c, f, vs, hc, hf, rfl, hty⟩
    cases hc
    rw [h5] at hf
    simp only [List.mem_cons, List.not_mem_nil, or_false] at hf
    rcases hf with rfl | rfl
    · exact n5
    · exact absurd hty (hg vs)
  constructor
  · simp
  · refine ⟨"tag", ?_⟩
    intro u hu
    simp only [List.mem_cons, List.not_mem_nil, or_false] at hu
    rcases hu with rfl | rfl
    · exact ⟨5, f5, _, rfl, by simp [h5], n5, t5⟩
    · exact ⟨6, f6, _, rfl, by simp [h6], n6, t6⟩
  · intro k hk'
    have := key k (hk' _ (by simp)); subst this
    exact ⟨.str "two", ⟨6, f6, _, rfl, by simp [h6], n6, t6, by simp⟩, by rw [hk]; decide⟩
  · intro k hk' u hu hne l hl
    have := key k (hk' _ (by simp)); subst this
    simp only [List.mem_cons, List.not_mem_nil, or_false] at hu
    rcases hu with rfl | rfl
    · obtain ⟨c, f, vs, hc, hf, hname, hty, hl⟩ := hl
      cases hc
      rw [h5] at hf
      simp only [List.mem_cons, List.not_mem_nil, or_false] at hf
      rcases hf with rfl | rfl
      · rw [t5] at hty; cases hty; simp at hl; subst hl; rw [hk]; decide
      · exact absurd hty (hg vs)
    · exact absurd rfl hne

/-- Hypotheses met: the tag `"two"` designates L2 in `Union[L1, L2]`. -/
example : DesignatesOnly Sample.W [(.str "tag", .str "two"), (.str "p", .int 3)] [.obj 5, .obj 6] (.obj 6) where
  toPointsAt := Sample.designates rfl rfl rfl rfl rfl rfl (fun _ h => by cases h) rfl
  own := by
    intro u hu c hc f hf _
    subst hc
    simp only [List.mem_cons, List.not_mem_nil, or_false, Ty.obj.injEq] at hu
    rcases hu with rfl | rfl <;>
      (simp only [Sample.W, Sample.cls, Sample.clsL1, Sample.clsL2, List.mem_cons, List.not_mem_nil, or_false] at hf; rcases hf with rfl | rfl <;> rfl)

/-- A failing load of data tagged `"two"` lists the exception of L2 first, also with `uniondebugconflict`. -/
example : (load Sample.W { Sample.C with uniondebugconflict := true } 6 (.dict [(.str "tag", .str "two"), (.str "p", .str "x")]) (.union [.obj 5, .obj 6]) (fresh [])).err?.map
    (fun e => (e.cls, e.subs.map (fun (x : Exc) => x.trace.head?.map (·.ann)))) =
    some (.tlValue, [some (some (.union (.obj 6))), some (some (.union (.obj 5)))]) := by decide
/-- The data designates L2. -/
example : DesignatesOnly Sample.W [(.str "tag", .str "two"), (.str "p", .str "x")] [.obj 5, .obj 6] (.obj 6) where
  toPointsAt := Sample.designates rfl rfl rfl rfl rfl rfl (fun _ h => by cases h) rfl
  own := by
    intro u hu c hc f hf _
    subst hc
    simp only [List.mem_cons, List.not_mem_nil, or_false, Ty.obj.injEq] at hu
    rcases hu with rfl | rfl <;>
      (simp only [Sample.W, Sample.cls, Sample.clsL1, Sample.clsL2, List.mem_cons, List.not_mem_nil, or_false] at hf; rcases hf with rfl | rfl <;> rfl)

/-- ```
@dataclass
class Base: ...        # two of them, with tag: Literal['one'] and tag: Literal['two']
class L1(Base1): p: Tuple[int, int]
class L2(Base2): p: int
``` -/
def Sample.inheritW : World := { Sample.W with cls := fun n => match n with
  | 5 => { kind := .dataclass, name := "L1", fields := [{ name := "tag", ty := .lit [.str "one"], declared := false }, { name := "p", ty := .tuple [.prim .int, .prim .int] }] }
  | 6 => { kind := .dataclass, name := "L2", fields := [{ name := "tag", ty := .lit [.str "two"], declared := false }, { name := "p", ty := .prim .int }] }
  | n => Sample.W.cls n }

/-- **C50** With the default handlers, when the tags are inherited from base classes the designated member is not tried first: the member L2 that the tag designates accepts the data,
but L1 is tried before it and its failure (finding 2) ends the load. -/
theorem C50_inherited_counterexample : ∃ (W : World) (kvs : List (Val × Val)) (p r : Val) (s s' : LState) (e : Exc),
    kvs = [(.str "p", p), (.str "tag", .str "two")] ∧ PointsAt W kvs [.obj 5, .obj 6] (.obj 6) ∧
    Loads W {} (fresh []) (.dict kvs) (.obj 6) r s ∧ Raises W {} (fresh []) (.dict kvs) (.union [.obj 5, .obj 6]) e s' ∧ e.cls = .assertion := by
  refine ⟨Sample.inheritW, _, .int 3, _, _, _, _, rfl, ?_, ⟨9, rfl⟩, ⟨9, rfl⟩, rfl⟩
  exact Sample.designates rfl rfl rfl rfl rfl rfl (fun _ h => by cases h) rfl

end TL
