import Verif.Lemmas.Pick
/-!
# Dictionaries with string keys, and name mangling
-/

namespace TL

/-! ## String keys -/

theorem pyEq_str_right (k : Val) (m : String) : pyEq k (.str m) = true ↔ k = .str m := by
  cases k <;> simp [pyEq, numKey]

theorem pyEq_str_left (k : Val) (m : String) : pyEq (.str m) k = true ↔ k = .str m := by
  cases k <;> simp [pyEq]
  exact eq_comm

/-- The string in a string key. -/
def strKey : Val → Option String
  | .str n => some n
  | _ => none

theorem strKey_eq {k : Val} {n : String} : strKey k = some n ↔ k = .str n := by
  cases k <;> simp [strKey]

/-- The string keys of a dictionary. -/
def strKeys {α : Type} (kvs : List (Val × α)) : List String := kvs.filterMap (fun p => strKey p.1)

theorem mem_strKeys {α : Type} {kvs : List (Val × α)} {n : String} : n ∈ strKeys kvs ↔ ∃ x, (.str n, x) ∈ kvs := by
  unfold strKeys
  simp only [List.mem_filterMap, strKey_eq]
  constructor
  · rintro ⟨⟨k, x⟩, h, rfl⟩; exact ⟨x, h⟩
  · rintro ⟨x, h⟩; exact ⟨_, h, rfl⟩

theorem dget_cons_str {α : Type} (k : Val) (x : α) (l : List (Val × α)) (m : String) :
    dget ((k, x) :: l) (.str m) = if k = .str m then some x else dget l (.str m) := by
  unfold dget
  rw [List.find?_cons]
  by_cases h : k = .str m
  · subst h
    have : pyEq (.str m) (.str m) = true := by simp [pyEq]
    simp [this]
  · have : pyEq k (.str m) = false := by
      rw [Bool.eq_false_iff]; intro h'; exact h ((pyEq_str_right k m).1 h')
    simp [this, h]

theorem dget_dset_str {α : Type} (l : List (Val × α)) (k : Val) (x : α) (m : String) :
    dget (dset l k x) (.str m) = if k = .str m then some x else dget l (.str m) := by
  induction l with
  | nil => simp [dset, dget_cons_str]
  | cons p l ih =>
    obtain ⟨a, b⟩ := p
    simp only [dset]
    by_cases h : pyEq a k = true
    · rw [if_pos h, dget_cons_str, dget_cons_str]
      by_cases hk : k = .str m
      · subst hk; rw [(pyEq_str_right a m).1 h]; simp
      · rw [if_neg hk]
        by_cases ha : a = .str m
        · subst ha; exact absurd ((pyEq_str_left k m).1 h) hk
        · rw [if_neg ha, if_neg ha]
    · rw [if_neg h, dget_cons_str, dget_cons_str, ih]
      by_cases ha : a = .str m
      · subst ha
        have hk : k ≠ .str m := by rintro rfl; exact h ((pyEq_str_right _ _).2 rfl)
        simp [hk]
      · simp [ha]

theorem dget_mem_str {α : Type} {l : List (Val × α)} {m : String} {x : α} (h : dget l (.str m) = some x) : (.str m, x) ∈ l := by
  unfold dget at h
  rw [Option.map_eq_some_iff] at h
  obtain ⟨⟨k, y⟩, h1, rfl⟩ := h
  have := List.find?_some h1
  rw [pyEq_str_right] at this
  dsimp only at this
  subst this
  exact List.mem_of_find?_eq_some h1

theorem dget_none_str {α : Type} {l : List (Val × α)} {m : String} : dget l (.str m) = none ↔ m ∉ strKeys l := by
  rw [mem_strKeys]
  constructor
  · rintro h ⟨x, hx⟩
    unfold dget at h
    simp only [Option.map_eq_none_iff, List.find?_eq_none] at h
    exact h _ hx ((pyEq_str_right _ _).2 rfl)
  · intro h
    cases h' : dget l (.str m) with
    | none => rfl
    | some x => exact absurd ⟨x, dget_mem_str h'⟩ h

theorem dget_of_mem_str {α : Type} {l : List (Val × α)} {m : String} {x : α} (hn : (strKeys l).Nodup) (h : (.str m, x) ∈ l) :
    dget l (.str m) = some x := by
  induction l with
  | nil => cases h
  | cons p l ih =>
    obtain ⟨k, y⟩ := p
    rw [dget_cons_str]
    by_cases hk : k = .str m
    · subst hk
      rw [if_pos rfl]
      have hn' : (m :: strKeys l).Nodup := hn
      rcases List.mem_cons.1 h with h | h
      · cases h; rfl
      · exact absurd (mem_strKeys.2 ⟨x, h⟩) (List.nodup_cons.1 hn').1
    · rw [if_neg hk]
      have hn' : (strKeys l).Nodup := by
        unfold strKeys at hn ⊢
        rw [List.filterMap_cons] at hn
        cases h' : strKey (k, y).1 with
        | none => rw [h'] at hn; exact hn
        | some _ => rw [h'] at hn; exact (List.nodup_cons.1 hn).2
      rcases List.mem_cons.1 h with h | h
      · cases h; exact absurd rfl hk
      · exact ih hn' h

theorem dhas_str {α : Type} (l : List (Val × α)) (m : String) : dhas l (.str m) = true ↔ m ∈ strKeys l := by
  unfold dhas
  rw [List.any_eq_true, mem_strKeys]
  constructor
  · rintro ⟨⟨k, x⟩, h, h'⟩
    rw [pyEq_str_right] at h'; dsimp only at h'; subst h'; exact ⟨x, h⟩
  · rintro ⟨x, h⟩; exact ⟨_, h, (pyEq_str_right _ _).2 rfl⟩

theorem strKeys_dset {α : Type} (l : List (Val × α)) (k : Val) (x : α) :
    strKeys (dset l k x) = strKeys l ∨ ∃ n, k = .str n ∧ n ∉ strKeys l ∧ strKeys (dset l k x) = strKeys l ++ [n] := by
  induction l with
  | nil =>
    cases hk : strKey k with
    | none => left; simp [dset, strKeys, hk]
    | some n => right; exact ⟨n, strKey_eq.1 hk, by simp [strKeys], by simp [dset, strKeys, hk]⟩
  | cons p l ih =>
    obtain ⟨a, b⟩ := p
    simp only [dset]
    by_cases h : pyEq a k = true
    · rw [if_pos h]; left; rfl
    · rw [if_neg h]
      rcases ih with ih | ⟨n, rfl, hn, ih⟩
      · left
        unfold strKeys at ih ⊢
        rw [List.filterMap_cons, List.filterMap_cons, ih]
      · right
        refine ⟨n, rfl, ?_, ?_⟩
        · unfold strKeys at hn ⊢
          rw [List.filterMap_cons]
          cases ha : strKey (a, b).1 with
          | none => exact hn
          | some m =>
            simp only [List.mem_cons, not_or]
            refine ⟨?_, hn⟩
            rintro rfl
            exact h ((pyEq_str_right _ _).2 (strKey_eq.1 ha))
        · unfold strKeys at ih ⊢
          rw [List.filterMap_cons, List.filterMap_cons, ih]
          cases strKey (a, b).1 <;> rfl

theorem strKeys_dset_nodup {α : Type} {l : List (Val × α)} (h : (strKeys l).Nodup) (k : Val) (x : α) : (strKeys (dset l k x)).Nodup := by
  rcases strKeys_dset l k x with h' | ⟨n, _, hn, h'⟩
  · rw [h']; exact h
  · rw [h']
    exact List.nodup_append.2 ⟨h, by simp, by rintro a ha b hb rfl; simp at hb; subst hb; exact hn ha⟩

/-! ## Transforms -/

/-- The name under which metadata renames a field. -/
def renamed (C : Config) (k : ObjKind) (f : Field) : Option String :=
  match k with
  | .dataclass => match aget f.metadata C.mangleKey with
    | some n => if n = "" then none else some n
    | none => none
  | .attrs => aget f.metadata C.mangleKey
  | _ => none

/-- The data key of a field. -/
def extName (C : Config) (k : ObjKind) (f : Field) : String := (renamed C k f).getD f.name

/-- The map from data names to Python names built by `_dataclassload` and `_attrload`. -/
def transformsOf (ren : Field → Option String) (fs : List Field) (acc : List (String × String)) : List (String × String) :=
  fs.foldl (fun acc f => match ren f with
    | some n => aset acc n f.name
    | none => acc) acc

theorem dataclassInfo_transforms (C : Config) (c : ClassDef) :
    (dataclassInfo C c).transforms = transformsOf (renamed C .dataclass) c.fields [] := by
  unfold dataclassInfo transformsOf
  dsimp only
  congr 1
  funext acc f
  simp only [renamed]
  cases aget f.metadata C.mangleKey with
  | none => rfl
  | some n => by_cases h : n = "" <;> simp [h]

theorem attrInfo_transforms (W : World) (C : Config) (fs : List Field) (hints : List (String × Ty)) :
    (attrInfo W C fs hints).transforms = transformsOf (renamed C .attrs) fs [] := rfl

theorem transformsOf_mem {ren : Field → Option String} (fs : List Field) :
    ∀ {acc : List (String × String)} {n p : String}, (n, p) ∈ transformsOf ren fs acc →
    (n, p) ∈ acc ∨ ∃ f ∈ fs, ren f = some n ∧ f.name = p := by
  induction fs with
  | nil => intro acc n p h; left; exact h
  | cons f fs ih =>
    intro acc n p h
    unfold transformsOf at h
    rw [List.foldl_cons] at h
    rcases ih h with h | ⟨g, hg, h⟩
    · cases hr : ren f with
      | none => rw [hr] at h; left; exact h
      | some m =>
        rw [hr] at h
        rcases mem_aset h with h | h
        · cases h; right; exact ⟨f, by simp, hr, rfl⟩
        · left; exact h
    · right; exact ⟨g, by simp [hg], h⟩

theorem transformsOf_aget {ren : Field → Option String} (fs : List Field) (hn : (fs.filterMap ren).Nodup) :
    ∀ (acc : List (String × String)) (n : String), aget (transformsOf ren fs acc) n =
      match fs.find? (fun f => ren f == some n) with
      | some f => some f.name
      | none => aget acc n := by
  induction fs with
  | nil => intro acc n; rfl
  | cons f fs ih =>
    intro acc n
    unfold transformsOf
    rw [List.foldl_cons]
    have hn' : (fs.filterMap ren).Nodup := by
      rw [List.filterMap_cons] at hn
      cases hr : ren f with
      | none => rw [hr] at hn; exact hn
      | some _ => rw [hr] at hn; exact (List.nodup_cons.1 hn).2
    have := ih hn' (match ren f with
      | some n => aset acc n f.name
      | none => acc) n
    unfold transformsOf at this
    rw [this, List.find?_cons]
    cases hr : ren f with
    | none => rfl
    | some m =>
      by_cases hm : m = n
      · subst hm
        simp only [beq_self_eq_true, aget_aset_self]
        have : fs.find? (fun f => ren f == some m) = none := by
          rw [List.find?_eq_none]
          intro g hg hg'
          rw [List.filterMap_cons, hr] at hn
          exact (List.nodup_cons.1 hn).1 (List.mem_filterMap.2 ⟨g, hg, by simpa using hg'⟩)
        rw [this]
      · have : (some m == some n) = false := by simp [hm]
        rw [this]
        simp only [aget_aset, if_neg hm]

/-- Field names are distinct (always true of Python classes) and so are the data names. -/
structure WFNames (C : Config) (k : ObjKind) (fs : List Field) : Prop where
  names : (fs.map (·.name)).Nodup
  exts : (fs.map (extName C k)).Nodup

theorem nodup_map_inj {α β : Type} {f : α → β} {l : List α} (h : (l.map f).Nodup) {a b : α} (ha : a ∈ l) (hb : b ∈ l)
    (hf : f a = f b) : a = b := by
  induction l with
  | nil => cases ha
  | cons x l ih =>
    rw [List.map_cons, List.nodup_cons] at h
    rcases List.mem_cons.1 ha with rfl | ha' <;> rcases List.mem_cons.1 hb with rfl | hb'
    · rfl
    · exact absurd (List.mem_map.2 ⟨b, hb', hf.symm⟩) h.1
    · exact absurd (List.mem_map.2 ⟨a, ha', hf⟩) h.1
    · exact ih h.2 ha' hb'

theorem filterMap_nodup_of_ext {C : Config} {k : ObjKind} (fs : List Field) (h : (fs.map (extName C k)).Nodup) :
    (fs.filterMap (renamed C k)).Nodup := by
  induction fs with
  | nil => simp
  | cons f fs ih =>
    rw [List.map_cons, List.nodup_cons] at h
    rw [List.filterMap_cons]
    cases hr : renamed C k f with
    | none => exact ih h.2
    | some n =>
      refine List.nodup_cons.2 ⟨?_, ih h.2⟩
      intro hm
      obtain ⟨g, hg, hg'⟩ := List.mem_filterMap.1 hm
      apply h.1
      refine List.mem_map.2 ⟨g, hg, ?_⟩
      simp [extName, hr, hg']

section
variable {C : Config} {k : ObjKind} {fs : List Field} (hw : WFNames C k fs)
include hw

/-- The transforms map. -/
theorem transforms_aget (n p : String) : aget (transformsOf (renamed C k) fs []) n = some p ↔
    ∃ f ∈ fs, renamed C k f = some n ∧ f.name = p := by
  rw [transformsOf_aget fs (filterMap_nodup_of_ext fs hw.exts)]
  constructor
  · intro h
    cases hf : fs.find? (fun f => renamed C k f == some n) with
    | none => rw [hf] at h; cases h
    | some f =>
      rw [hf] at h; cases h
      exact ⟨f, List.mem_of_find?_eq_some hf, by simpa using List.find?_some hf, rfl⟩
  · rintro ⟨f, hf, hr, rfl⟩
    cases hq : fs.find? (fun f => renamed C k f == some n) with
    | none => rw [List.find?_eq_none] at hq; exact absurd (by simp [hr]) (hq f hf)
    | some g =>
      have h1 := List.mem_of_find?_eq_some hq
      have h2 : renamed C k g = some n := by simpa using List.find?_some hq
      have : g = f := nodup_map_inj hw.exts h1 hf (by simp [extName, h2, hr])
      rw [this]

theorem transforms_none (n : String) : aget (transformsOf (renamed C k) fs []) n = none ↔
    ∀ f ∈ fs, renamed C k f ≠ some n := by
  constructor
  · intro h f hf hr
    rw [(transforms_aget hw n f.name).2 ⟨f, hf, hr, rfl⟩] at h; cases h
  · intro h
    cases hq : aget (transformsOf (renamed C k) fs []) n with
    | none => rfl
    | some p => obtain ⟨f, hf, hr, _⟩ := (transforms_aget hw n p).1 hq; exact absurd hr (h f hf)

theorem transforms_values (p : String) : p ∈ (transformsOf (renamed C k) fs []).map (·.2) ↔
    ∃ f ∈ fs, (renamed C k f).isSome = true ∧ f.name = p := by
  constructor
  · intro h
    obtain ⟨⟨n, q⟩, h1, rfl⟩ := List.mem_map.1 h
    rcases transformsOf_mem fs h1 with h | ⟨f, hf, hr, hn⟩
    · cases h
    · exact ⟨f, hf, by simp [hr], hn⟩
  · rintro ⟨f, hf, hr, rfl⟩
    cases hq : renamed C k f with
    | none => rw [hq] at hr; cases hr
    | some n => exact List.mem_map.2 ⟨(n, f.name), aget_mem ((transforms_aget hw n f.name).2 ⟨f, hf, hq, rfl⟩), rfl⟩

omit hw
/-- What happens to a string key. -/
inductive KeyFate | kept | renamedTo (p : String) | dropped
  deriving DecidableEq

/-- The Python name of a data name, or none if the data name is not accepted. -/
def keyFate (tr : List (String × String)) (n : String) : KeyFate :=
  match aget tr n with
  | some p => .renamedTo p
  | none => if (tr.map (·.2)).contains n then .dropped else .kept

theorem mangleLoop_str (tr : List (String × String)) (foe : Bool) (n : String) (x : Val) (rest r : List (Val × Val)) :
    mangleLoop tr foe ((.str n, x) :: rest) r = match keyFate tr n with
      | .renamedTo p => mangleLoop tr foe rest (dset r (.str p) x)
      | .dropped => if foe then .error .value else mangleLoop tr foe rest r
      | .kept => mangleLoop tr foe rest (dset r (.str n) x) := by
  rw [mangleLoop, keyFate]
  cases aget tr n with
  | some p => simp
  | none =>
    cases hc : (tr.map (·.2)).contains n
    · simp
    · simp

theorem mangleLoop_other (tr : List (String × String)) (foe : Bool) {k : Val} (hk : strKey k = none) (x : Val)
    (rest r : List (Val × Val)) : mangleLoop tr foe ((k, x) :: rest) r = mangleLoop tr foe rest (dset r k x) := by
  cases k <;> simp [strKey] at hk <;> rfl

include hw
/-- The data name of a field is mapped to the field. -/
theorem keyFate_ext {f : Field} (hf : f ∈ fs) : keyFate (transformsOf (renamed C k) fs []) (extName C k f) =
    if (renamed C k f).isSome then .renamedTo f.name else .kept := by
  unfold keyFate
  cases hr : renamed C k f with
  | some n =>
    have : extName C k f = n := by simp [extName, hr]
    rw [this, (transforms_aget hw n f.name).2 ⟨f, hf, hr, rfl⟩]; rfl
  | none =>
    have he : extName C k f = f.name := by simp [extName, hr]
    have h1 : aget (transformsOf (renamed C k) fs []) (extName C k f) = none := by
      rw [transforms_none hw]
      intro g hg hr'
      have : g = f := nodup_map_inj hw.exts hg hf (by simp only [extName, hr', Option.getD_some])
      subst this; rw [hr] at hr'; cases hr'
    have h2 : ((transformsOf (renamed C k) fs []).map (·.2)).contains (extName C k f) = false := by
      rw [Bool.eq_false_iff]; intro h
      rw [List.contains_iff_mem, transforms_values hw] at h
      obtain ⟨g, hg, hr', hn⟩ := h
      have : g = f := nodup_map_inj hw.names hg hf (by rw [hn, he])
      subst this; rw [hr] at hr'; cases hr'
    rw [h1]; simp only [h2]; rfl

/-- Any other name is dropped if it is the Python name of a renamed field, and otherwise kept; then it is no field. -/
theorem keyFate_other {n : String} (hn : ∀ f ∈ fs, extName C k f ≠ n) :
    (keyFate (transformsOf (renamed C k) fs []) n = .dropped ∧ ∃ f ∈ fs, f.name = n ∧ (renamed C k f).isSome = true) ∨
    (keyFate (transformsOf (renamed C k) fs []) n = .kept ∧ ∀ f ∈ fs, f.name ≠ n) := by
  unfold keyFate
  have h1 : aget (transformsOf (renamed C k) fs []) n = none := by
    rw [transforms_none hw]
    intro f hf hr; exact hn f hf (by simp [extName, hr])
  rw [h1]
  by_cases h : n ∈ (transformsOf (renamed C k) fs []).map (·.2)
  · left
    obtain ⟨f, hf, hr, hq⟩ := (transforms_values hw n).1 h
    refine ⟨?_, f, hf, hq, hr⟩
    rw [← List.contains_iff_mem] at h
    simp only [h, if_true]
  · right
    refine ⟨?_, ?_⟩
    · rw [← List.contains_iff_mem] at h
      simp only [h]; rfl
    · rintro f hf rfl
      cases hr : renamed C k f with
      | none => exact hn f hf (by simp [extName, hr])
      | some m => exact h ((transforms_values hw _).2 ⟨f, hf, by simp [hr], rfl⟩)

/-- After mangling, each field holds the value found under its data name. -/
theorem mangleLoop_dget {foe : Bool} {f : Field} (hf : f ∈ fs) (kvs : List (Val × Val)) :
    ∀ (acc r : List (Val × Val)), (strKeys kvs).Nodup →
    mangleLoop (transformsOf (renamed C k) fs []) foe kvs acc = .ok r →
    dget r (.str f.name) = (dget kvs (.str (extName C k f))).or (dget acc (.str f.name)) := by
  induction kvs with
  | nil => intro acc r _ h; cases h; simp [dget]
  | cons p kvs ih =>
    obtain ⟨a, x⟩ := p
    intro acc r hnd h
    have hnd' : (strKeys kvs).Nodup := by
      unfold strKeys at hnd ⊢
      rw [List.filterMap_cons] at hnd
      cases h' : strKey (a, x).1 with
      | none => rw [h'] at hnd; exact hnd
      | some _ => rw [h'] at hnd; exact (List.nodup_cons.1 hnd).2
    cases hs : strKey a with
    | none =>
      rw [mangleLoop_other _ _ hs] at h
      rw [ih _ r hnd' h, dget_dset_str, dget_cons_str]
      have h1 : ∀ m, a ≠ .str m := fun m hm => by rw [hm] at hs; cases hs
      rw [if_neg (h1 _), if_neg (h1 _)]
    | some n =>
      rw [strKey_eq] at hs; subst hs
      rw [mangleLoop_str] at h
      rw [dget_cons_str]
      by_cases hn : n = extName C k f
      · subst hn
        have hnone : dget kvs (.str (extName C k f)) = none := by
          rw [dget_none_str]
          exact (List.nodup_cons.1 (show (extName C k f :: strKeys kvs).Nodup from hnd)).1
        rw [keyFate_ext hw hf] at h
        rw [if_pos rfl]
        cases hr : renamed C k f with
        | some m =>
          rw [hr] at h
          simp only [Option.isSome_some, if_true] at h
          rw [ih _ r hnd' h, hnone, dget_dset_str]; simp
        | none =>
          rw [hr] at h
          simp only [Option.isSome_none, Bool.false_eq_true, if_false] at h
          have he : extName C k f = f.name := by simp [extName, hr]
          rw [ih _ r hnd' h, hnone, dget_dset_str, he]; simp
      · have hne : ¬ (Val.str n = .str (extName C k f)) := fun h => hn (Val.str.inj h)
        rw [if_neg hne]
        by_cases hg : ∃ g ∈ fs, extName C k g = n
        · obtain ⟨g, hg, rfl⟩ := hg
          have hgf : g ≠ f := fun h => hn (by rw [h])
          have hnames : g.name ≠ f.name := fun h => hgf (nodup_map_inj hw.names hg hf h)
          rw [keyFate_ext hw hg] at h
          cases hr : renamed C k g with
          | some m =>
            rw [hr] at h
            simp only [Option.isSome_some, if_true] at h
            rw [ih _ r hnd' h, dget_dset_str, if_neg (fun h => hnames (Val.str.inj h))]
          | none =>
            rw [hr] at h
            simp only [Option.isSome_none, Bool.false_eq_true, if_false] at h
            have he : extName C k g = g.name := by simp [extName, hr]
            rw [he] at h
            rw [ih _ r hnd' h, dget_dset_str, if_neg (fun h => hnames (Val.str.inj h))]
        · have hg' : ∀ g ∈ fs, extName C k g ≠ n := fun g hgm h => hg ⟨g, hgm, h⟩
          rcases keyFate_other hw hg' with ⟨hd, _⟩ | ⟨hk', hno⟩
          · rw [hd] at h
            cases foe with
            | true => simp at h
            | false => simp only [Bool.false_eq_true, if_false] at h; rw [ih _ r hnd' h]
          · rw [hk'] at h
            simp only at h
            rw [ih _ r hnd' h, dget_dset_str, if_neg (fun h => hno f hf (Val.str.inj h).symm)]

omit hw
/-- Mangling keeps the string keys distinct. -/
theorem mangleLoop_nodup (tr : List (String × String)) (foe : Bool) (kvs : List (Val × Val)) :
    ∀ (acc r : List (Val × Val)), (strKeys acc).Nodup → mangleLoop tr foe kvs acc = .ok r → (strKeys r).Nodup := by
  induction kvs with
  | nil => intro acc r h h'; cases h'; exact h
  | cons p kvs ih =>
    obtain ⟨a, x⟩ := p
    intro acc r hnd h
    cases hs : strKey a with
    | none => rw [mangleLoop_other _ _ hs] at h; exact ih _ r (strKeys_dset_nodup hnd _ _) h
    | some n =>
      rw [strKey_eq] at hs; subst hs
      rw [mangleLoop_str] at h
      cases hf : keyFate tr n with
      | kept => rw [hf] at h; exact ih _ r (strKeys_dset_nodup hnd _ _) h
      | renamedTo p => rw [hf] at h; exact ih _ r (strKeys_dset_nodup hnd _ _) h
      | dropped =>
        rw [hf] at h
        cases foe with
        | true => simp at h
        | false => simp only [Bool.false_eq_true, if_false] at h; exact ih _ r hnd h

end

end TL
