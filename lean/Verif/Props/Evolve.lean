import Verif.Lemmas.EvolveRun
/-!
# Data of the old program in the new program

A program is changed: its classes get more fields, some types become more liberal.  The data that the old program could load can be loaded by the new
one, and the result is the same but for the fields that were added, which have their defaults.
-/

namespace TL

section
variable {W : World} {C : Config} {V : Nat → Nat → Prop}

/-- **C57** Let `t'` be a newer version of the type `t` (see `Newer`), where every class `c` is replaced with the class `d`, for `V c d`, that has the same fields
or newer versions of them and possibly other fields that are not required; `d` may be of another kind (`KindChange`).  If a loader with any history loads `v` into `t` and returns `r`, then any other
loader, with any history, loads `v` into `t'` and returns the new version of `r` (see `Grown`), provided that both are used within the conditions of
C06 (`Steady`) and that the data is one for the old program (`OldData`). -/
theorem C57_evolution (hd : C.Default) (h1 : W.NotRequiredLaw) (h2 : W.SteadyTags)
    {s s' : LState} (hs : Reachable W C s) (hs' : Reachable W C s') {v r : Val} {t t' : Ty} {s1 : LState}
    (hatt : ∀ c, Uses W (namesIn W s t) t (.obj c) → (W.cls c).kind = .attrs → ∀ f ∈ (W.cls c).fields, ∃ t, FieldTy .attrs f t)
    (hV : ∀ c d, V c d → NewerClass W C V (namesIn W s t) (namesIn W s' t') c d)
    (hnew : Newer W C V (namesIn W s t) (namesIn W s' t') t t')
    (hnames : NewerNames W C V (namesIn W s t) (namesIn W s' t') t)
    (hold : OldData W C V (namesIn W s t) v t)
    (hst : Steady W C (namesIn W s t) v t) (hst' : Steady W C (namesIn W s' t') v t')
    (hl : Loads W C s v t r s1) : ∃ r' s2, Loads W C s' v t' r' s2 ∧ Grown W V r r' := by
  obtain ⟨h, hp, N, ho⟩ := Yields.of_loads hd h1 h2 hs (.refl _ _) hst hl
  obtain ⟨h', hp'⟩ := hnew.pick hd hp
  have hu := Newer.up hd hatt hV hnames hold N v t t' h h' hp hp' .self hnew
  have ho := ho N (Nat.le_refl _)
  dsimp only at ho
  unfold Up at hu
  rw [ho] at hu
  obtain ⟨r', hok, hg⟩ := hu
  obtain ⟨s2, hl2⟩ := Yields.loads hd h1 h2 hs' (.refl _ _) hst' ⟨h', hp', hok⟩
  exact ⟨r', s2, hl2, hg⟩

end

/-! ## Examples -/

namespace Sample

/-- The old program: `class Node: v: int; kind: Literal['a']; next: Optional['Node']` (dataclass). -/
def clsOld : ClassDef :=
  { kind := .dataclass, name := "Node", fields :=
    [ { name := "v", ty := .prim .int }, { name := "kind", ty := .lit [.str "a"] }, { name := "next", ty := .union [.fref "Node", .prim .none] } ] }
/-- The new program: `class Node: v: int; kind: Literal['a', 'b']; next: Optional['Node']; tag: str = 'x'` (dataclass). -/
def clsNew : ClassDef :=
  { kind := .dataclass, name := "Node", fields :=
    [ { name := "v", ty := .prim .int }, { name := "kind", ty := .lit [.str "a", .str "b"] }, { name := "next", ty := .union [.fref "Node", .prim .none] },
      { name := "tag", ty := .prim .str, default := some (.str "x") } ] }
/-- Both programs in one. -/
def WV : World :=
  { W with
    cls := fun c => match c with
      | 0 => clsOld
      | 1 => clsNew
      | n => { kind := .dataclass, name := "Empty" ++ toString n, fields := [] }
    tyName := fun t => match t with
      | .obj 0 => some "Node"
      | .obj 1 => some "Node"
      | _ => none }
/-- The class 1 is the new version of the class 0. -/
def VE (c d : Nat) : Prop := c = 0 ∧ d = 1

theorem uses_evo {i : Nat} (hi : i = 0 ∨ i = 1) {u : Ty} (h : Uses WV (namesIn WV (fresh []) (.obj i)) (.obj i) u) :
    u = .obj i ∨ u = .prim .int ∨ u = .union [.fref "Node", .prim .none] ∨ u = .fref "Node" ∨ u = .prim .none ∨ u = .prim .str ∨ ∃ vs, u = .lit vs := by
  induction h with
  | self => exact Or.inl rfl
  | coll _ ih => simp at ih
  | tuple _ _ ih => simp at ih
  | dictKey _ ih => simp at ih
  | dictVal _ ih => simp at ih
  | newtype _ ih => simp at ih
  | enum _ _ ih => simp at ih
  | union _ hu ih =>
    simp at ih; subst ih
    simp at hu; rcases hu with rfl | rfl <;> simp
  | field _ hf ht ih =>
    simp at ih; subst ih
    rcases hi with rfl | rfl
    · have hf' : _ ∈ clsOld.fields := hf
      simp [clsOld] at hf'
      rcases hf' with rfl | rfl | rfl <;> cases ht <;> first | (simp; done) | contradiction
    · have hf' : _ ∈ clsNew.fields := hf
      simp [clsNew] at hf'
      rcases hf' with rfl | rfl | rfl | rfl <;> cases ht <;> first | (simp; done) | contradiction
  | fref f _ hΓ hn ih =>
    simp at ih; subst ih
    simp only [namesIn, fresh, Option.some.injEq] at hΓ
    subst hΓ
    rcases hi with rfl | rfl
    · simp [aget, WV] at hn; exact Or.inl hn.symm
    · simp [aget, WV] at hn; exact Or.inl hn.symm

theorem evo_steady {i : Nat} (hi : i = 0 ∨ i = 1) (v : Val) : Steady WV C (namesIn WV (fresh []) (.obj i)) v (.obj i) := by
  have hu : ∀ k w, ¬ Uses WV (namesIn WV (fresh []) (.obj i)) (.obj i) (.dict k w) := fun k w h => absurd (uses_evo hi h) (by simp)
  refine ⟨fun f n h hu hn => ?_, fun k w h => absurd h (hu _ _), fun k w h => absurd h (hu _ _), fun d kvs w h => absurd h.uses (hu _ _),
    fun d kvs k h => absurd h.uses (hu _ _)⟩
  have := uses_evo hi hu
  simp at this
  subst this
  cases h
  rcases hi with rfl | rfl
  · exact absurd hn (by decide)
  · exact absurd hn (by decide)

/-- The names of the old and of the new program. -/
abbrev oldNames : Env := namesIn WV (fresh []) (.obj 0)
abbrev newNames : Env := namesIn WV (fresh []) (.obj 1)

theorem evo_prim {p : Prim} : Newer WV C VE oldNames newNames (.prim p) (.prim p) := by
  refine .same ⟨by simp [namesIn, fresh], fun f f' hf hf' n hu => ?_⟩
  have : ∀ u, Uses WV oldNames (.prim p) u → u = .prim p := by
    intro u h
    induction h with
    | self => rfl
    | _ => rename_i ih; simp at ih
  cases this _ hu

theorem evo_next : Newer WV C VE oldNames newNames (.union [.fref "Node", .prim .none]) (.union [.fref "Node", .prim .none]) :=
  .optional (by decide) (Or.inl rfl) (Or.inl rfl) (.fref _ rfl rfl .obj) (.fref _ rfl rfl .obj) .fref

theorem evo_class {c d : Nat} (h : VE c d) : NewerClass WV C VE oldNames newNames c d := by
  obtain ⟨rfl, rfl⟩ := h
  have hty : ∀ f : Field, ∀ t, FieldTy .dataclass f t → t = f.ty := by
    intro f t h; cases h <;> first | rfl | contradiction
  refine ⟨Or.inl rfl, ⟨by decide, by decide⟩, ⟨by decide, by decide⟩, fun f hf => ?_, fun f hf hr => ?_, fun h => absurd rfl h, fun _ => rfl, fun _ => rfl, fun h => (by cases h)⟩
  · have hf' : f ∈ clsOld.fields := hf
    simp [clsOld] at hf'
    rcases hf' with rfl | rfl | rfl
    · refine ⟨{ name := "v", ty := .prim .int }, by simp [WV, clsNew], rfl, rfl, rfl, fun _ h => h, fun _ => ⟨rfl, rfl⟩, fun h => (by cases h), fun t u ht hu => ?_⟩
      rw [hty _ _ ht, hty _ _ hu]; exact evo_prim
    · refine ⟨{ name := "kind", ty := .lit [.str "a", .str "b"] }, by simp [WV, clsNew], rfl, rfl, rfl, fun _ h => h, fun _ => ⟨rfl, rfl⟩, fun h => (by cases h), fun t u ht hu => ?_⟩
      rw [hty _ _ ht, hty _ _ hu]; exact .lit (by simp)
    · refine ⟨{ name := "next", ty := .union [.fref "Node", .prim .none] }, by simp [WV, clsNew], rfl, rfl, rfl, fun _ h => h, fun _ => ⟨rfl, rfl⟩, fun h => (by cases h), fun t u ht hu => ?_⟩
      rw [hty _ _ ht, hty _ _ hu]; exact evo_next
  · obtain ⟨hf, hno⟩ := hf
    have hf' : f ∈ clsNew.fields := hf
    simp [clsNew] at hf'
    rcases hf' with rfl | rfl | rfl | rfl
    · exact hno { name := "v", ty := .prim .int } (by simp [WV, clsOld]) rfl
    · exact hno { name := "kind", ty := .lit [.str "a"] } (by simp [WV, clsOld]) rfl
    · exact hno { name := "next", ty := .union [.fref "Node", .prim .none] } (by simp [WV, clsOld]) rfl
    · cases hr.2

theorem evo_laws : WV.NotRequiredLaw ∧ WV.SteadyTags := by
  have hf : ∀ c, ∀ f ∈ (WV.cls c).fields, f.notRequired = false ∧ f.required = true := by
    intro c f hf
    match c with
    | 0 =>
      have hf' : f ∈ clsOld.fields := hf
      simp [clsOld] at hf'
      rcases hf' with rfl | rfl | rfl <;> exact ⟨rfl, rfl⟩
    | 1 =>
      have hf' : f ∈ clsNew.fields := hf
      simp [clsNew] at hf'
      rcases hf' with rfl | rfl | rfl | rfl <;> exact ⟨rfl, rfl⟩
    | n + 2 => cases hf
  exact ⟨fun c f h hn => by have := (hf c f h).1; simp_all, fun c f h hn => by have := (hf c f h).1; simp_all, fun _ _ h => .inl h⟩

end Sample

open Sample in
theorem Sample.evo_attrs (c : Nat) (hu : Uses WV oldNames (.obj 0) (.obj c)) (hk : (WV.cls c).kind = .attrs) :
    ∀ f ∈ (WV.cls c).fields, ∃ t, FieldTy .attrs f t := by
  have := uses_evo (Or.inl rfl) hu
  simp at this
  subst this
  cases hk

open Sample in
theorem Sample.evo_names : NewerNames WV Sample.C VE oldNames newNames (.obj 0) := by
  refine ⟨by simp [namesIn, fresh], ?_⟩
  intro f f' hf hf' n hu u hn
  have := uses_evo (Or.inl rfl) hu
  simp at this
  subst this
  cases hf; cases hf'
  cases hn
  exact ⟨.obj 1, rfl, .obj ⟨rfl, rfl⟩⟩

open Sample in
theorem Sample.evo_data {v : Val} (hk : ∀ kvs, Within v (.dict kvs) → (strKeys kvs).Nodup ∧ "tag" ∉ strKeys kvs) (hns : ∀ kvs, ¬ Within v (.ns kvs)) :
    OldData WV Sample.C VE oldNames v (.obj 0) := by
  rintro x c d hr ⟨rfl, rfl⟩ kvs hd
  have hw := hr.within
  rcases hd with rfl | ⟨fs, rfl, _⟩
  · refine ⟨rfl, (hk _ hw).1, fun _ f hf => ?_⟩
    obtain ⟨hf, hno⟩ := hf
    have hf' : f ∈ clsNew.fields := hf
    simp [clsNew] at hf'
    rcases hf' with rfl | rfl | rfl | rfl
    · exact absurd rfl (hno { name := "v", ty := .prim .int } (by simp [WV, clsOld]))
    · exact absurd rfl (hno { name := "kind", ty := .lit [.str "a"] } (by simp [WV, clsOld]))
    · exact absurd rfl (hno { name := "next", ty := .union [.fref "Node", .prim .none] } (by simp [WV, clsOld]))
    · exact (hk _ hw).2
  · exact absurd hw (hns _)

open Sample in
/-- C57: whatever the data, provided that its dictionaries have distinct keys and no key "tag", and that it contains no Namespace. -/
example (v r : Val) (s1 : LState) (hk : ∀ kvs, Within v (.dict kvs) → (strKeys kvs).Nodup ∧ "tag" ∉ strKeys kvs) (hns : ∀ kvs, ¬ Within v (.ns kvs))
    (hl : Loads WV Sample.C (fresh []) v (.obj 0) r s1) : ∃ r' s2, Loads WV Sample.C (fresh []) v (.obj 1) r' s2 ∧ Grown WV VE r r' :=
  C57_evolution (V := VE) (C := Sample.C) rfl evo_laws.1 evo_laws.2 (.new (some []) []) (.new (some []) []) Sample.evo_attrs (fun c d h => evo_class h) (.obj ⟨rfl, rfl⟩)
    Sample.evo_names (Sample.evo_data hk hns) (evo_steady (Or.inl rfl) v) (evo_steady (Or.inr rfl) v) hl

open Sample in
/-- And the data of a chain of two nodes can be loaded in both programs. -/
example : let v := Val.dict [(.str "v", .int 1), (.str "kind", .str "a"), (.str "next", .dict [(.str "v", .int 2), (.str "kind", .str "a"), (.str "next", .none)])]
    (load WV Sample.C 9 v (.obj 0) (fresh [])).val? =
      some (.inst 0 [("v", .int 1), ("kind", .str "a"), ("next", .inst 0 [("v", .int 2), ("kind", .str "a"), ("next", .none)])]) ∧
    (load WV Sample.C 9 v (.obj 1) (fresh [])).val? =
      some (.inst 1 [("v", .int 1), ("kind", .str "a"), ("next", .inst 1 [("v", .int 2), ("kind", .str "a"), ("next", .none), ("tag", .str "x")]), ("tag", .str "x")]) := by
  decide

/-! ### Classes that change their kind -/

namespace Sample

/-- `class Point(TypedDict): x: int; y: NotRequired[int]` -/
def tdPoint : ClassDef :=
  { kind := .typeddict, name := "Point", fields := [ { name := "x", ty := .prim .int }, { name := "y", ty := .prim .int, required := false, notRequired := true } ] }
/-- `@dataclass class Point: x: int; y: int = 0; z: str = 'z'` -/
def dcPoint : ClassDef :=
  { kind := .dataclass, name := "Point", fields := [ { name := "x", ty := .prim .int }, { name := "y", ty := .prim .int, default := some (.int 0) },
    { name := "z", ty := .prim .str, default := some (.str "z") } ] }
/-- `class Line(NamedTuple): points: List[Point]` with the TypedDict -/
def ntLine : ClassDef := { kind := .namedtuple, name := "Line", fields := [ { name := "points", ty := .coll .list (.obj 0) } ] }
/-- `@attr.s class Line: points: List[Point]; name: str = ''` with the dataclass -/
def atLine : ClassDef :=
  { kind := .attrs, name := "Line", fields := [ { name := "points", ty := .coll .list (.obj 1) }, { name := "name", ty := .prim .str, default := some (.str "") } ] }
def WK : World :=
  { W with cls := fun c => match c with
      | 0 => tdPoint
      | 1 => dcPoint
      | 2 => ntLine
      | 3 => atLine
      | n => { kind := .dataclass, name := "Empty" ++ toString n, fields := [] } }
def VK (c d : Nat) : Prop := c = 0 ∧ d = 1 ∨ c = 2 ∧ d = 3

theorem uses_kind {Γ : Env} {i : Nat} (hi : i = 2 ∨ i = 3) {u : Ty} (h : Uses WK Γ (.obj i) u) :
    u = .obj i ∨ (u = .coll .list (.obj 0) ∨ u = .coll .list (.obj 1)) ∨ (u = .obj 0 ∨ u = .obj 1) ∨ u = .prim .int ∨ u = .prim .str := by
  induction h with
  | self => exact Or.inl rfl
  | coll _ ih => rcases hi with rfl | rfl <;> simp at ih <;> rcases ih with ⟨rfl, rfl⟩ | ⟨rfl, rfl⟩ <;> simp
  | tuple _ _ ih => simp at ih
  | dictKey _ ih => simp at ih
  | dictVal _ ih => simp at ih
  | newtype _ ih => simp at ih
  | enum _ _ ih => simp at ih
  | union _ hu ih => simp at ih
  | fref f _ hΓ hn ih => simp at ih
  | @field c f t _ hf ht ih =>
    have : c = 0 ∨ c = 1 ∨ c = 2 ∨ c = 3 := by
      rcases hi with rfl | rfl <;> simp at ih <;> rcases ih with rfl | rfl | rfl <;> simp
    rcases this with rfl | rfl | rfl | rfl
    · have hf' : f ∈ tdPoint.fields := hf
      simp [tdPoint] at hf'
      rcases hf' with rfl | rfl <;> cases ht <;> first | (simp; done) | contradiction
    · have hf' : f ∈ dcPoint.fields := hf
      simp [dcPoint] at hf'
      rcases hf' with rfl | rfl | rfl <;> cases ht <;> first | (simp; done) | contradiction
    · have hf' : f ∈ ntLine.fields := hf
      simp [ntLine] at hf'
      subst hf'; cases ht <;> first | (simp; done) | contradiction
    · have hf' : f ∈ atLine.fields := hf
      simp [atLine] at hf'
      rcases hf' with rfl | rfl <;> cases ht <;> first | (simp; done) | contradiction

theorem kind_steady {Γ : Env} {i : Nat} (hi : i = 2 ∨ i = 3) (v : Val) : Steady WK C Γ v (.obj i) := by
  have hu : ∀ k w, ¬ Uses WK Γ (.obj i) (.dict k w) := fun k w h => absurd (uses_kind hi h) (by simp)
  refine ⟨fun f n h hu hn => ?_, fun k w h => absurd h (hu _ _), fun k w h => absurd h (hu _ _), fun d kvs w h => absurd h.uses (hu _ _),
    fun d kvs k h => absurd h.uses (hu _ _)⟩
  exact absurd (uses_kind hi hu) (by simp)

theorem kind_prim {Γ Γ' : Env} (hn : Γ = none ↔ Γ' = none) {p : Prim} : Newer WK C VK Γ Γ' (.prim p) (.prim p) := by
  refine .same ⟨hn, fun f f' hf hf' n hu => ?_⟩
  have : ∀ u, Uses WK Γ (.prim p) u → u = .prim p := by
    intro u h
    induction h with
    | self => rfl
    | _ => rename_i ih; simp at ih
  cases this _ hu

theorem kind_class {Γ Γ' : Env} (hn : Γ = none ↔ Γ' = none) {c d : Nat} (h : VK c d) : NewerClass WK C VK Γ Γ' c d := by
  rcases h with ⟨rfl, rfl⟩ | ⟨rfl, rfl⟩
  · refine ⟨Or.inr ⟨by decide, fun h => (by cases h)⟩, ⟨by decide, by decide⟩, ⟨by decide, by decide⟩, fun f hf => ?_, fun f hf hr => ?_,
      by decide, fun _ => rfl, fun _ => rfl, fun h => (by cases h)⟩
    · have hf' : f ∈ tdPoint.fields := hf
      simp [tdPoint] at hf'
      rcases hf' with rfl | rfl
      · refine ⟨{ name := "x", ty := .prim .int }, by simp [WK, dcPoint], rfl, rfl, rfl, fun _ h => h, fun _ => ⟨rfl, rfl⟩, fun h => (by cases h), fun t u ht hu => ?_⟩
        cases ht <;> cases hu <;> first | exact kind_prim hn | contradiction
      · refine ⟨{ name := "y", ty := .prim .int, default := some (.int 0) }, by simp [WK, dcPoint], rfl, rfl, rfl, fun _ h => (by cases h), fun h => (by cases h.2),
          fun h => (by cases h), fun t u ht hu => ?_⟩
        cases ht <;> cases hu <;> first | exact kind_prim hn | contradiction
    · obtain ⟨hf, hno⟩ := hf
      have hf' : f ∈ dcPoint.fields := hf
      simp [dcPoint] at hf'
      rcases hf' with rfl | rfl | rfl
      · exact hno { name := "x", ty := .prim .int } (by simp [WK, tdPoint]) rfl
      · exact hno { name := "y", ty := .prim .int, required := false, notRequired := true } (by simp [WK, tdPoint]) rfl
      · cases hr.2
  · refine ⟨Or.inr ⟨by decide, fun h => (by cases h)⟩, ⟨by decide, by decide⟩, ⟨by decide, by decide⟩, fun f hf => ?_, fun f hf hr => ?_,
      by decide, fun _ => rfl, fun _ => rfl, fun h f hf => ?_⟩
    · have hf' : f ∈ ntLine.fields := hf
      simp [ntLine] at hf'
      subst hf'
      refine ⟨{ name := "points", ty := .coll .list (.obj 1) }, by simp [WK, atLine], rfl, rfl, rfl, fun _ h => h, fun _ => rfl, fun _ _ => (by decide), fun t u ht hu => ?_⟩
      cases ht <;> cases hu <;> first | exact .coll (by decide) (.obj (Or.inl ⟨rfl, rfl⟩)) | contradiction
    · obtain ⟨hf, hno⟩ := hf
      have hf' : f ∈ atLine.fields := hf
      simp [atLine] at hf'
      rcases hf' with rfl | rfl
      · exact hno { name := "points", ty := .coll .list (.obj 0) } (by simp [WK, ntLine]) rfl
      · cases hr.2
    · have hf' : f ∈ atLine.fields := hf
      simp [atLine] at hf'
      rcases hf' with rfl | rfl <;> exact ⟨_, .declared fun _ => rfl⟩

theorem kind_laws : WK.NotRequiredLaw ∧ WK.SteadyTags := by
  have hf : ∀ c, ∀ f ∈ (WK.cls c).fields, (f.notRequired = true → f.required = false) ∧ is_literal f.ty = false := by
    intro c f hf
    match c with
    | 0 =>
      have hf' : f ∈ tdPoint.fields := hf
      simp [tdPoint] at hf'
      rcases hf' with rfl | rfl <;> exact ⟨fun _ => by first | rfl | contradiction, rfl⟩
    | 1 =>
      have hf' : f ∈ dcPoint.fields := hf
      simp [dcPoint] at hf'
      rcases hf' with rfl | rfl | rfl <;> exact ⟨fun _ => by first | rfl | contradiction, rfl⟩
    | 2 =>
      have hf' : f ∈ ntLine.fields := hf
      simp [ntLine] at hf'
      subst hf'; exact ⟨fun _ => by first | rfl | contradiction, rfl⟩
    | 3 =>
      have hf' : f ∈ atLine.fields := hf
      simp [atLine] at hf'
      rcases hf' with rfl | rfl <;> exact ⟨fun _ => by first | rfl | contradiction, rfl⟩
    | n + 4 => cases hf
  exact ⟨fun c f h hn => (hf c f h).1 hn, fun c f h hn => (hf c f h).2, fun _ _ h => .inl h⟩

end Sample

open Sample in
/-- C57 for classes that change their kind: the TypedDict becomes a dataclass and the NamedTuple becomes an attrs class, both with one more field. -/
example (v r : Val) (s1 : LState) (hk : ∀ kvs, Within v (.dict kvs) → (strKeys kvs).Nodup ∧ "z" ∉ strKeys kvs ∧ "name" ∉ strKeys kvs)
    (hns : ∀ kvs, ¬ Within v (.ns kvs))
    (hl : Loads WK Sample.C (fresh []) v (.obj 2) r s1) : ∃ r' s2, Loads WK Sample.C (fresh []) v (.obj 3) r' s2 ∧ Grown WK VK r r' := by
  have hn : namesIn WK (fresh []) (.obj 2) = none ↔ namesIn WK (fresh []) (.obj 3) = none := by simp [namesIn, fresh]
  refine C57_evolution (V := VK) (C := Sample.C) rfl kind_laws.1 kind_laws.2 (.new (some []) []) (.new (some []) []) ?_ (fun c d h => kind_class hn h)
    (.obj (Or.inr ⟨rfl, rfl⟩)) ⟨hn, ?_⟩ ?_ (kind_steady (Or.inl rfl) v) (kind_steady (Or.inr rfl) v) hl
  · intro c hu hk
    have := uses_kind (Or.inl rfl) hu
    simp at this
    rcases this with rfl | rfl | rfl <;> cases hk
  · intro f f' hf hf' n hu u hn
    exact absurd (uses_kind (Or.inl rfl) hu) (by simp)
  · intro x c d hr hv kvs hd
    have hw := hr.within
    rcases hd with rfl | ⟨fs, rfl, _⟩
    · refine ⟨rfl, (hk _ hw).1, fun _ f hf => ?_⟩
      obtain ⟨hf, hno⟩ := hf
      rcases hv with ⟨rfl, rfl⟩ | ⟨rfl, rfl⟩
      · have hf' : f ∈ dcPoint.fields := hf
        simp [dcPoint] at hf'
        rcases hf' with rfl | rfl | rfl
        · exact absurd rfl (hno { name := "x", ty := .prim .int } (by simp [WK, tdPoint]))
        · exact absurd rfl (hno { name := "y", ty := .prim .int, required := false, notRequired := true } (by simp [WK, tdPoint]))
        · exact (hk _ hw).2.1
      · have hf' : f ∈ atLine.fields := hf
        simp [atLine] at hf'
        rcases hf' with rfl | rfl
        · exact absurd rfl (hno { name := "points", ty := .coll .list (.obj 0) } (by simp [WK, ntLine]))
        · exact (hk _ hw).2.2
    · exact absurd hw (hns _)

open Sample in
/-- And there is such data. -/
example : let v := Val.dict [(.str "points", .list [.dict [(.str "x", .int 1), (.str "y", .int 2)], .dict [(.str "x", .int 3)]])]
    (load WK Sample.C 9 v (.obj 2) (fresh [])).val? =
      some (.nt 2 [("points", .list [.dict [(.str "x", .int 1), (.str "y", .int 2)], .dict [(.str "x", .int 3)]])]) ∧
    (load WK Sample.C 9 v (.obj 3) (fresh [])).val? =
      some (.inst 3 [("points", .list [.inst 1 [("x", .int 1), ("y", .int 2), ("z", .str "z")], .inst 1 [("x", .int 3), ("y", .int 0), ("z", .str "z")]]),
        ("name", .str "")]) := by
  decide

/-! ## Changes that are not covered -/

/-- **C57** A type of numbers may not become optional (`Newer.toOptional` is for classes and collections): `True` in a list of ints is left alone, but it
is converted in a list of optional ints. -/
theorem C57_optional_counterexample : ∃ (v r r' : Val) (s1 s2 : LState), Loads Sample.W Sample.C (fresh []) v (.coll .list (.prim .int)) r s1 ∧
    Loads Sample.W Sample.C (fresh []) v (.coll .list (.union [.prim .int, .prim .none])) r' s2 ∧ r = .list [.bool true] ∧ r' = .list [.int 1] :=
  ⟨.list [.bool true], _, _, _, _, ⟨9, rfl⟩, ⟨9, rfl⟩, rfl, rfl⟩

/-- **C57** The condition on the keys (`OldData`): a key that the old program ignored is the key of an added field. -/
theorem C57_key_counterexample : ∃ (v r r' : Val) (s1 s2 : LState), Loads Sample.WV Sample.C (fresh []) v (.obj 0) r s1 ∧
    Loads Sample.WV Sample.C (fresh []) v (.obj 1) r' s2 ∧ r = .inst 0 [("v", .int 1), ("kind", .str "a"), ("next", .none)] ∧
    r' = .inst 1 [("v", .int 1), ("kind", .str "a"), ("next", .none), ("tag", .str "y")] ∧ ¬ Grown Sample.WV Sample.VE r r' := by
  refine ⟨.dict [(.str "v", .int 1), (.str "kind", .str "a"), (.str "next", .none), (.str "tag", .str "y")], _, _, _, _, ⟨9, rfl⟩, ⟨9, rfl⟩, rfl, rfl, ?_⟩
  intro h
  cases h with
  | obj hv h1 h2 _ _ h =>
    rcases h1 with ⟨_, h1⟩ | ⟨_, _, h1⟩ <;> cases h1
    rcases h2 with ⟨_, h2⟩ | ⟨_, _, h2⟩ <;> cases h2
    obtain ⟨f, hf, hn, hd⟩ := h "tag" (.str "y") (by decide) (by decide)
    have hf' : f ∈ Sample.clsNew.fields := hf
    simp [Sample.clsNew] at hf'
    rcases hf' with rfl | rfl | rfl | rfl <;> simp at hd

/-- `class A: x: int`, `class B: x: int; y: int` and the new version `class A2: x: int; y: int = 0` (dataclasses) -/
def Sample.WVU : World :=
  { Sample.W with
    cls := fun c => match c with
      | 0 => { kind := .dataclass, name := "A", fields := [ { name := "x", ty := .prim .int } ] }
      | 1 => { kind := .dataclass, name := "A", fields := [ { name := "x", ty := .prim .int }, { name := "y", ty := .prim .int, default := some (.int 0) } ] }
      | _ => { kind := .dataclass, name := "B", fields := [ { name := "x", ty := .prim .int }, { name := "y", ty := .prim .int } ] } }

/-- **C57** The classes in a Union without a tag may not get new fields, not even with `failonextra` (only Optional is covered): the data of another
member may become data of the new class. -/
theorem C57_union_counterexample : ∃ (v r r' : Val) (s1 s2 : LState), Loads Sample.WVU { failonextra := true } (fresh []) v (.union [.obj 0, .obj 2]) r s1 ∧
    Loads Sample.WVU { failonextra := true } (fresh []) v (.union [.obj 1, .obj 2]) r' s2 ∧
    r = .inst 2 [("x", .int 1), ("y", .int 2)] ∧ r' = .inst 1 [("x", .int 1), ("y", .int 2)] :=
  ⟨.dict [(.str "x", .int 1), (.str "y", .int 2)], _, _, _, _, ⟨9, rfl⟩, ⟨9, rfl⟩, rfl, rfl⟩

/-- `@dataclass class P: x: int = 0` and `class P(TypedDict): x: NotRequired[int]` -/
def Sample.WVD : World :=
  { Sample.W with
    cls := fun c => match c with
      | 0 => { kind := .dataclass, name := "P", fields := [ { name := "x", ty := .prim .int, default := some (.int 0) } ] }
      | _ => { kind := .typeddict, name := "P", fields := [ { name := "x", ty := .prim .int, required := false, notRequired := true } ] } }

/-- **C57** A dataclass may not become a TypedDict (`KindChange`): the defaults are lost. -/
theorem C57_kind_counterexample : ∃ (v r r' : Val) (s1 s2 : LState), Loads Sample.WVD Sample.C (fresh []) v (.obj 0) r s1 ∧
    Loads Sample.WVD Sample.C (fresh []) v (.obj 1) r' s2 ∧ r = .inst 0 [("x", .int 0)] ∧ r' = .dict [] :=
  ⟨.dict [], _, _, _, _, ⟨9, rfl⟩, ⟨9, rfl⟩, rfl, rfl⟩

end TL
