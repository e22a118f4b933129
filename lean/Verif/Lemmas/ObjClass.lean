import Verif.Lemmas.Objects
import Verif.Lemmas.Rew
/-!
# Loading into classes: what the four class handlers have in common
-/

namespace TL

variable {W : World} {C : Config}

/-- The type into which the data of a field is loaded.  The hints of an attrs converter are those of its annotated parameters and,
possibly, of its result: with one or two hints the first parameter decides, otherwise the data is not loaded (Any). -/
inductive FieldTy (k : ObjKind) (f : Field) : Ty → Prop
  | declared : (k = .attrs → f.conv = none) → FieldTy k f f.ty
  | converter (cv : Conv) {t ts} : k = .attrs → f.conv = some cv → cv.params = t :: ts →
      cv.params.length + (if cv.ret then 1 else 0) ≤ 2 → FieldTy k f t
  | untyped (cv : Conv) : k = .attrs → f.conv = some cv → cv.params = [] → cv.ret = false → FieldTy k f .any
  | manyHints (cv : Conv) : k = .attrs → f.conv = some cv → 2 < cv.params.length + (if cv.ret then 1 else 0) → FieldTy k f .any

/-- The fields the data must provide. -/
def Required (k : ObjKind) (f : Field) : Prop :=
  match k with
  | .namedtuple => f.default = none
  | .dataclass => f.init = true ∧ f.default = none
  | .attrs => f.init = true ∧ f.default = none
  | .typeddict => f.required = true ∧ f.notRequired = false

/-- `info` describes the class. -/
structure InfoFor (W : World) (C : Config) (c : Nat) (info : ObjInfo) : Prop where
  fields : info.fields = (W.cls c).fields.map (·.name)
  nec_sub : ∀ n ∈ info.necessary, ∃ f ∈ (W.cls c).fields, f.name = n ∧
    (Required (W.cls c).kind f ∨ (W.cls c).kind = .typeddict ∧ f.required = true)
  nec : ∀ f ∈ (W.cls c).fields, Required (W.cls c).kind f → (W.cls c).kind ≠ .attrs → f.name ∈ info.necessary
  hints : ∀ n t, aget info.hints n = some t → ∃ f ∈ (W.cls c).fields, f.name = n ∧ FieldTy (W.cls c).kind f t
  hints_some : ∀ f ∈ (W.cls c).fields, (aget info.hints f.name).isSome = true
  transforms : info.transforms = transformsOf (renamed C (W.cls c).kind) (W.cls c).fields []

theorem transformsOf_none {ren : Field → Option String} (fs : List Field) (acc : List (String × String))
    (h : ∀ f ∈ fs, ren f = none) : transformsOf ren fs acc = acc := by
  unfold transformsOf
  induction fs with
  | nil => rfl
  | cons f fs ih =>
    rw [List.foldl_cons, h f (by simp)]
    exact ih (fun g hg => h g (by simp [hg]))

theorem aget_map_hint {fs : List Field} {n : String} {t : Ty} (h : aget (fs.map (fun f => (f.name, f.ty))) n = some t) :
    ∃ f ∈ fs, f.name = n ∧ t = f.ty := by
  have := aget_mem h
  obtain ⟨f, hf, he⟩ := List.mem_map.1 this
  cases he; exact ⟨f, hf, rfl, rfl⟩

theorem aget_map_hint_some {fs : List Field} {f : Field} (h : f ∈ fs) :
    (aget (fs.map (fun f => (f.name, f.ty))) f.name).isSome = true := by
  rw [aget_isSome_iff, List.map_map]
  exact List.mem_map.2 ⟨f, h, rfl⟩

theorem infoFor_namedtuple {c : Nat} (hk : (W.cls c).kind = .namedtuple) : InfoFor W C c (namedtupleInfo (W.cls c)) where
  fields := rfl
  nec_sub := by
    intro n hn
    simp only [namedtupleInfo, List.mem_map, List.mem_filter] at hn
    obtain ⟨f, ⟨hf, h1⟩, h2⟩ := hn
    exact ⟨f, hf, h2, Or.inl (by rw [hk]; simpa [Required, Option.isNone_iff_eq_none] using h1)⟩
  nec := by
    intro f hf hr _
    rw [hk] at hr
    simp only [namedtupleInfo, List.mem_map, List.mem_filter]
    exact ⟨f, ⟨hf, by simpa [Required, Option.isNone_iff_eq_none] using hr⟩, rfl⟩
  hints := by
    intro n t h
    obtain ⟨f, hf, h1, rfl⟩ := aget_map_hint h
    exact ⟨f, hf, h1, .declared (by rw [hk]; intro h; cases h)⟩
  hints_some := fun f hf => aget_map_hint_some hf
  transforms := by
    rw [hk, transformsOf_none (ren := renamed C .namedtuple) _ _ (fun f _ => rfl)]; rfl

theorem infoFor_dataclass {c : Nat} (hk : (W.cls c).kind = .dataclass) : InfoFor W C c (dataclassInfo C (W.cls c)) where
  fields := rfl
  nec_sub := by
    intro n hn
    simp only [dataclassInfo, List.mem_map, List.mem_filter] at hn
    obtain ⟨f, ⟨hf, h1⟩, h2⟩ := hn
    exact ⟨f, hf, h2, Or.inl (by rw [hk]; simpa [Required, Option.isNone_iff_eq_none] using h1)⟩
  nec := by
    intro f hf hr _
    rw [hk] at hr
    simp only [dataclassInfo, List.mem_map, List.mem_filter]
    exact ⟨f, ⟨hf, by simpa [Required, Option.isNone_iff_eq_none] using hr⟩, rfl⟩
  hints := by
    intro n t h
    obtain ⟨f, hf, h1, rfl⟩ := aget_map_hint h
    exact ⟨f, hf, h1, .declared (by rw [hk]; intro h; cases h)⟩
  hints_some := fun f hf => aget_map_hint_some hf
  transforms := by rw [hk, dataclassInfo_transforms]

theorem infoFor_typeddict {c : Nat} (hk : (W.cls c).kind = .typeddict) (b : Bool) : InfoFor W C c (typeddictInfo (W.cls c) b) where
  fields := rfl
  nec_sub := by
    intro n hn
    simp only [typeddictInfo, List.mem_map, List.mem_filter] at hn
    obtain ⟨f, ⟨hf, h1⟩, h2⟩ := hn
    simp only [Bool.and_eq_true] at h1
    exact ⟨f, hf, h2, Or.inr ⟨hk, h1.1⟩⟩
  nec := by
    intro f hf hr _
    rw [hk] at hr
    simp only [typeddictInfo, List.mem_map, List.mem_filter]
    exact ⟨f, ⟨hf, by simp [hr.1, hr.2]⟩, rfl⟩
  hints := by
    intro n t h
    obtain ⟨f, hf, h1, rfl⟩ := aget_map_hint h
    exact ⟨f, hf, h1, .declared (by rw [hk]; intro h; cases h)⟩
  hints_some := fun f hf => aget_map_hint_some hf
  transforms := by
    rw [hk, transformsOf_none (ren := renamed C .typeddict) _ _ (fun f _ => rfl)]; rfl

theorem convType_ok {cv : Conv} {f : Field} {t : Ty} (hf : f.conv = some cv) (h : convType cv = .ok t) : FieldTy .attrs f t := by
  unfold convType at h
  by_cases hl : 0 < cv.params.length + (if cv.ret then 1 else 0) ∧ cv.params.length + (if cv.ret then 1 else 0) ≤ 2
  · rw [if_pos hl] at h
    cases hp : cv.params with
    | nil => rw [hp] at h; cases h
    | cons a l => rw [hp] at h; cases h; exact .converter cv rfl hf hp hl.2
  · rw [if_neg hl] at h
    cases h
    by_cases h0 : 0 < cv.params.length + (if cv.ret then 1 else 0)
    · exact .manyHints cv rfl hf (by omega)
    · cases hp : cv.params with
      | nil =>
        rw [hp] at h0
        cases hr : cv.ret with
        | true => rw [hr] at h0; simp at h0
        | false => exact .untyped cv rfl hf hp hr
      | cons a l => rw [hp] at h0; simp at h0

theorem attrHints_spec : ∀ (fs : List Field) (hints : List (String × Ty)), attrHints fs = .ok hints →
    (∀ n t, (n, t) ∈ hints → ∃ f ∈ fs, f.name = n ∧ FieldTy .attrs f t) ∧ hints.map (·.1) = fs.map (·.name)
  | [], hints, h => by cases h; exact ⟨fun _ _ h => (by cases h), rfl⟩
  | f :: fs, hints, h => by
    simp only [attrHints] at h
    cases hc : f.conv with
    | none =>
      rw [hc] at h
      dsimp only at h
      cases hr : attrHints fs with
      | error e => rw [hr] at h; cases h
      | ok r =>
        rw [hr] at h; cases h
        obtain ⟨h1, h2⟩ := attrHints_spec fs r hr
        refine ⟨?_, by simp [h2]⟩
        intro n t hm
        rcases List.mem_cons.1 hm with h | h
        · cases h; exact ⟨f, by simp, rfl, .declared (fun _ => hc)⟩
        · obtain ⟨g, hg, h3⟩ := h1 n t h; exact ⟨g, by simp [hg], h3⟩
    | some cv =>
      rw [hc] at h
      dsimp only at h
      cases hv : convType cv with
      | error e => rw [hv] at h; cases h
      | ok ty =>
        rw [hv] at h
        dsimp only at h
        cases hr : attrHints fs with
        | error e => rw [hr] at h; cases h
        | ok r =>
          rw [hr] at h; cases h
          obtain ⟨h1, h2⟩ := attrHints_spec fs r hr
          refine ⟨?_, by simp [h2]⟩
          intro n t hm
          rcases List.mem_cons.1 hm with h | h
          · cases h; exact ⟨f, by simp, rfl, convType_ok hc hv⟩
          · obtain ⟨g, hg, h3⟩ := h1 n t h; exact ⟨g, by simp [hg], h3⟩

theorem infoFor_attrs {c : Nat} (hk : (W.cls c).kind = .attrs) {hints : List (String × Ty)}
    (hh : attrHints (W.cls c).fields = .ok hints) : InfoFor W C c (attrInfo W C (W.cls c).fields hints) where
  fields := rfl
  nec_sub := by
    intro n hn
    simp only [attrInfo, List.mem_map, List.mem_filter] at hn
    obtain ⟨f, ⟨hf, h1⟩, h2⟩ := hn
    simp only [Bool.and_eq_true, Option.isNone_iff_eq_none] at h1
    exact ⟨f, hf, h2, Or.inl (by rw [hk]; exact ⟨h1.2, h1.1.2⟩)⟩
  nec := fun f hf _ hn => absurd hk hn
  hints := by
    intro n t h
    rw [hk]
    exact (attrHints_spec _ _ hh).1 n t (aget_mem h)
  hints_some := by
    intro f hf
    rw [aget_isSome_iff]
    show f.name ∈ hints.map (·.1)
    rw [(attrHints_spec _ _ hh).2]
    exact List.mem_map.2 ⟨f, hf, rfl⟩
  transforms := by rw [hk, attrInfo_transforms]

/-- The data after renaming: `kvs'` holds the data `kvs` of `v` under the Python names. -/
def Mangled (C : Config) (tr : List (String × String)) (v : Val) (kvs kvs' : List (Val × Val)) : Prop :=
  DictData C v kvs ∧ ((tr = [] ∧ kvs' = kvs) ∨ (v = .dict kvs ∧ tr ≠ [] ∧ mangleLoop tr C.failonextra kvs [] = .ok kvs'))

/-- Why renaming the data fails. -/
def MangleErr (C : Config) (tr : List (String × String)) (v : Val) (e : Exc) : Prop :=
  tr ≠ [] ∧ (((∀ kvs, v ≠ .dict kvs) ∧ e.cls = .tlAttr) ∨
    (C.failonextra = true ∧ e.cls = .tlValue ∧ ∃ kvs n x, v = .dict kvs ∧ (.str n, x) ∈ kvs ∧ keyFate tr n = .dropped))

theorem mangleLoop_error (tr : List (String × String)) (foe : Bool) (kvs : List (Val × Val)) :
    ∀ (acc : List (Val × Val)) (c : ExcClass), mangleLoop tr foe kvs acc = .error c →
      foe = true ∧ c = .value ∧ ∃ n x, (.str n, x) ∈ kvs ∧ keyFate tr n = .dropped := by
  induction kvs with
  | nil => intro acc c h; cases h
  | cons p kvs ih =>
    obtain ⟨a, x⟩ := p
    intro acc c h
    have lift : (foe = true ∧ c = .value ∧ ∃ n x, (.str n, x) ∈ kvs ∧ keyFate tr n = .dropped) →
        foe = true ∧ c = .value ∧ ∃ n y, (.str n, y) ∈ (a, x) :: kvs ∧ keyFate tr n = .dropped := by
      rintro ⟨h1, h2, n, y, h3, h4⟩; exact ⟨h1, h2, n, y, List.mem_cons_of_mem _ h3, h4⟩
    cases hs : strKey a with
    | none => rw [mangleLoop_other _ _ hs] at h; exact lift (ih _ c h)
    | some n =>
      rw [strKey_eq] at hs; subst hs
      rw [mangleLoop_str] at h
      cases hf : keyFate tr n with
      | kept => rw [hf] at h; exact lift (ih _ c h)
      | renamedTo p => rw [hf] at h; exact lift (ih _ c h)
      | dropped =>
        rw [hf] at h
        cases hfo : foe with
        | true => rw [hfo] at h; simp at h; exact ⟨rfl, h.symm, n, x, by simp, hf⟩
        | false => rw [hfo] at h; simp only [Bool.false_eq_true, if_false] at h; subst hfo; exact lift (ih _ c h)

theorem mangle_names_ok {tr : List (String × String)} {v v' : Val} (h : mangle_names tr v C.failonextra = .ok v') :
    (tr = [] ∧ v' = v) ∨ ∃ kvs kvs', v = .dict kvs ∧ v' = .dict kvs' ∧ tr ≠ [] ∧ mangleLoop tr C.failonextra kvs [] = .ok kvs' := by
  unfold mangle_names at h
  split at h
  · rename_i he; left; cases h; exact ⟨by simpa using he, rfl⟩
  · rename_i hne
    right
    have hne' : tr ≠ [] := by intro h0; rw [h0] at hne; exact hne rfl
    cases v <;> simp only [items] at h <;> try (cases h; done)
    rename_i kvs
    cases hm : mangleLoop tr C.failonextra kvs [] with
    | error c => rw [hm] at h; cases h
    | ok r => rw [hm] at h; cases h; exact ⟨kvs, r, rfl, rfl, hne', hm⟩

theorem mangle_names_error {tr : List (String × String)} {v : Val} {c : ExcClass} (h : mangle_names tr v C.failonextra = .error c) :
    tr ≠ [] ∧ (((∀ kvs, v ≠ .dict kvs) ∧ c = .attr) ∨ (C.failonextra = true ∧ c = .value ∧
      ∃ kvs n x, v = .dict kvs ∧ (.str n, x) ∈ kvs ∧ keyFate tr n = .dropped)) := by
  unfold mangle_names at h
  split at h
  · cases h
  · rename_i he
    refine ⟨by simpa using he, ?_⟩
    cases v <;> simp only [items] at h <;>
      first
      | (cases h; left; exact ⟨fun _ h => (by cases h), rfl⟩)
      | skip
    rename_i kvs
    cases hm : mangleLoop tr C.failonextra kvs [] with
    | ok r => rw [hm] at h; cases h
    | error c' =>
      rw [hm] at h; cases h
      obtain ⟨h1, h2, n, x, h3, h4⟩ := mangleLoop_error _ _ _ _ _ hm
      right; exact ⟨h1, h2, kvs, n, x, rfl, h3, h4⟩

/-- A successful call of a class handler. -/
def ObjOk (W : World) (C : Config) (s0 : LState) (v : Val) (c : Nat) (r : Val) : Prop :=
  ∃ info kvs kvs' params, InfoFor W C c info ∧ Mangled C info.transforms v kvs kvs' ∧
    (∀ f ∈ info.necessary, f ∈ strKeys kvs') ∧
    (C.failonextra = true → ∀ p ∈ kvs', isFieldKey info.fields p.1 = true) ∧
    ObjParams W C s0 info kvs' [] params ∧ construct W c params = .ok r

/-- The ways a class handler fails. -/
def ObjFail (W : World) (C : Config) (s0 : LState) (v : Val) (c : Nat) (e : Exc) : Prop :=
  ((W.cls c).kind = .attrs ∧ e = .plain .stopIteration ∧ attrHints (W.cls c).fields = .error .stopIteration) ∨
  ∃ info, InfoFor W C c info ∧
   (MangleErr C info.transforms v e ∨
    ((∀ kvs, ¬ DictData C v kvs) ∧ e = mkExc .tlAttr (.py .attr) v (.obj c) ∧ info.transforms = []) ∨
    ∃ kvs kvs', Mangled C info.transforms v kvs kvs' ∧
     ((∃ f ∈ info.necessary, f ∉ strKeys kvs') ∧ e.cls = .tlValue ∨
      (C.failonextra = true ∧ ∃ p ∈ kvs', isFieldKey info.fields p.1 = false ∧
        (e.cls = .tlValue ∧ e.isTL = true ∨ (e = .plain .type ∧ ∃ p ∈ kvs', strKey p.1 = none))) ∨
      ((∀ f ∈ info.necessary, f ∈ strKeys kvs') ∧ ∃ v', ObjErr W C s0 info v' (.obj c) kvs' e) ∨
      ((∀ f ∈ info.necessary, f ∈ strKeys kvs') ∧ ∃ params x, ObjParams W C s0 info kvs' [] params ∧ construct W c params = .error x ∧
        e = constructExc x)))

theorem post_objhandler_aux {n : Nat} {info : ObjInfo} {v v' : Val} {c : Nat} {s0 s : LState} (he : Ext W C s0 s) (hc : Coh W C s)
    (hi : InfoFor W C c info) (hm : (info.transforms = [] ∧ v' = v) ∨
      ∃ kvs kvs', v = .dict kvs ∧ v' = .dict kvs' ∧ info.transforms ≠ [] ∧ mangleLoop info.transforms C.failonextra kvs [] = .ok kvs') :
    Post (objloader W C (run W C n) info v' c) s (fun r s' => Ext W C s s' ∧ ObjOk W C s0 v c r)
      (fun e s' => Ext W C s s' ∧ ObjFail W C s0 v c e) := by
  have key : ∀ kvs', DictData C v' kvs' → ∃ kvs, Mangled C info.transforms v kvs kvs' := by
    intro kvs' hd
    rcases hm with ⟨h1, rfl⟩ | ⟨kvs, kvs2, rfl, rfl, h3⟩
    · exact ⟨kvs', hd, Or.inl ⟨h1, rfl⟩⟩
    · rcases hd with hd | ⟨_, hd, _⟩
      · cases hd; exact ⟨kvs, Or.inl rfl, Or.inr ⟨rfl, h3⟩⟩
      · cases hd
  refine (post_objloader (n := n) (info := info) (v := v') (c := c) he hc).mono ?_ ?_
  · rintro r s' ⟨h1, kvs', params, hd, h2, h3, h4, h5⟩
    obtain ⟨kvs, hk⟩ := key kvs' hd
    exact ⟨h1, info, kvs, kvs', params, hi, hk, h2, h3, h4, h5⟩
  · rintro e s' ⟨h1, h2⟩
    refine ⟨h1, Or.inr ⟨info, hi, ?_⟩⟩
    rcases h2 with ⟨h2, h3⟩ | ⟨kvs', hd, h2⟩
    · right; left
      rcases hm with ⟨h4, rfl⟩ | ⟨kvs, kvs2, rfl, rfl, _⟩
      · exact ⟨h2, h3, h4⟩
      · exact absurd (Or.inl rfl) (h2 kvs2)
    · right; right
      obtain ⟨kvs, hk⟩ := key kvs' hd
      refine ⟨kvs, kvs', hk, ?_⟩
      rcases h2 with h2 | h2 | ⟨v2, h2, h3⟩ | ⟨p, x, h2, h3, h4, h5⟩
      · exact Or.inl h2
      · exact Or.inr (Or.inl h2)
      · exact Or.inr (Or.inr (Or.inl ⟨h3, v2, h2⟩))
      · exact Or.inr (Or.inr (Or.inr ⟨h5, p, x, h2, h3, h4⟩))

theorem post_mangle {n : Nat} {info : ObjInfo} {v : Val} {c : Nat} {s0 s : LState} (he : Ext W C s0 s) (hc : Coh W C s)
    (hi : InfoFor W C c info) :
    Post (mangleOrRaise C info.transforms v (.obj c) >>= fun v' => objloader W C (run W C n) info v' c) s
      (fun r s' => Ext W C s s' ∧ ObjOk W C s0 v c r)
      (fun e s' => Ext W C s s' ∧ ObjFail W C s0 v c e) := by
  unfold mangleOrRaise
  cases hm : mangle_names info.transforms v C.failonextra with
  | ok v' => exact post_objhandler_aux he hc hi (mangle_names_ok hm)
  | error x =>
    obtain ⟨h1, h2⟩ := mangle_names_error hm
    rcases h2 with ⟨h2, rfl⟩ | ⟨h2, rfl, h3⟩
    · refine ⟨Ext.refl s, Or.inr ⟨info, hi, Or.inl ⟨h1, Or.inl ⟨h2, rfl⟩⟩⟩⟩
    · refine ⟨Ext.refl s, Or.inr ⟨info, hi, Or.inl ⟨h1, Or.inr ⟨h2, rfl, h3⟩⟩⟩⟩

theorem attrHints_error : ∀ (fs : List Field) (x : ExcClass), attrHints fs = .error x → x = .stopIteration
  | [], x, h => by cases h
  | f :: fs, x, h => by
    simp only [attrHints] at h
    have conv : ∀ cv x, convType cv = .error x → x = .stopIteration := by
      intro cv x h; unfold convType at h
      by_cases hl : 0 < cv.params.length + (if cv.ret then 1 else 0) ∧ cv.params.length + (if cv.ret then 1 else 0) ≤ 2
      · rw [if_pos hl] at h
        cases hp : cv.params with
        | nil => rw [hp] at h; cases h; rfl
        | cons a l => rw [hp] at h; cases h
      · rw [if_neg hl] at h; cases h
    cases hc : f.conv with
    | none =>
      rw [hc] at h; dsimp only at h
      cases hr : attrHints fs with
      | error e => rw [hr] at h; cases h; exact attrHints_error fs _ hr
      | ok r => rw [hr] at h; cases h
    | some cv =>
      rw [hc] at h; dsimp only at h
      cases hv : convType cv with
      | error e => rw [hv] at h; cases h; exact conv _ _ hv
      | ok ty =>
        rw [hv] at h; dsimp only at h
        cases hr : attrHints fs with
        | error e => rw [hr] at h; cases h; exact attrHints_error fs _ hr
        | ok r => rw [hr] at h; cases h

theorem namedtupleload_eq (rec : Rec) {c : Nat} (hk : (W.cls c).kind = .namedtuple) (v : Val) :
    namedtupleload W C rec v (.obj c) = objloader W C rec (namedtupleInfo (W.cls c)) v c := by
  simp [namedtupleload, hk]
theorem dataclassload_eq (rec : Rec) {c : Nat} (hk : (W.cls c).kind = .dataclass) (v : Val) :
    dataclassload W C rec v (.obj c) = dataclassCached W C c >>= fun info =>
      mangleOrRaise C info.transforms v (.obj c) >>= fun v' => objloader W C rec info v' c := by
  simp [dataclassload, hk]
theorem attrload_eq (rec : Rec) {c : Nat} (hk : (W.cls c).kind = .attrs) (v : Val) :
    attrload W C rec v (.obj c) = match attrHints (W.cls c).fields with
      | .error e => M.throw (.plain e)
      | .ok hints => mangleOrRaise C (attrInfo W C (W.cls c).fields hints).transforms v (.obj c) >>= fun v' =>
          objloader W C rec (attrInfo W C (W.cls c).fields hints) v' c := by
  simp only [attrload, hk, if_true]; cases attrHints (W.cls c).fields <;> rfl
theorem typeddictload_eq (rec : Rec) {c : Nat} (hk : (W.cls c).kind = .typeddict) (v : Val) :
    typeddictload W C rec v (.obj c) = M.get >>= fun s => M.modify (rewriteAnnotations W c) >>= fun _ =>
      objloader W C rec (typeddictInfo (W.cls c) (s.tdRew.contains c)) v c := by
  simp [typeddictload, hk]

/-- Outcomes of the handler of a class. -/
theorem post_objhandler {n : Nat} {v : Val} {c : Nat} {s0 s : LState} (he : Ext W C s0 s) (hc : Coh W C s) :
    Post (run W C n (objHandler (W.cls c).kind) v (.obj c)) s (fun r s' => Ext W C s s' ∧ ObjOk W C s0 v c r)
      (fun e s' => Ext W C s s' ∧ ObjFail W C s0 v c e) := by
  cases n with
  | zero => trivial
  | succ n =>
    have hrun : ∀ h, run W C (n + 1) h v (.obj c) = step W C (run W C n) h v (.obj c) := fun _ => rfl
    cases hk : (W.cls c).kind with
    | namedtuple =>
      rw [hrun]
      show Post (namedtupleload W C (run W C n) v (.obj c)) s _ _
      rw [namedtupleload_eq _ hk]
      exact post_objhandler_aux he hc (infoFor_namedtuple hk) (Or.inl ⟨rfl, rfl⟩)
    | typeddict =>
      rw [hrun]
      show Post (typeddictload W C (run W C n) v (.obj c)) s _ _
      rw [typeddictload_eq _ hk]
      rw [post_bind, post_get, post_bind, post_modify]
      have he1 : Ext W C s (rewriteAnnotations W c s) := by
        unfold rewriteAnnotations; split
        · exact Ext.rew
        · exact Ext.refl s
      refine (post_objhandler_aux (n := n) (he.trans he1) (hc.ext he1) (infoFor_typeddict hk _) (Or.inl ⟨rfl, rfl⟩)).mono ?_ ?_
      · rintro r s' ⟨h1, h2⟩; exact ⟨he1.trans h1, h2⟩
      · rintro e s' ⟨h1, h2⟩; exact ⟨he1.trans h1, h2⟩
    | dataclass =>
      rw [hrun]
      show Post (dataclassload W C (run W C n) v (.obj c)) s _ _
      rw [dataclassload_eq _ hk]
      rw [post_bind]
      have : Post (dataclassCached W C c) s (fun i s' => i = dataclassInfo C (W.cls c) ∧ Ext W C s s') (fun _ _ => False) := by
        unfold dataclassCached
        rw [post_bind, post_get]
        cases ho : aget s.objc c with
        | some i => exact ⟨hc.objc c i ho, Ext.refl s⟩
        | none => exact ⟨rfl, Ext.objc ho⟩
      refine this.mono ?_ (fun _ _ h => h.elim)
      rintro i s' ⟨rfl, he1⟩
      refine (post_mangle (n := n) (he.trans he1) (hc.ext he1) (infoFor_dataclass hk)).mono ?_ ?_
      · rintro r s' ⟨h1, h2⟩; exact ⟨he1.trans h1, h2⟩
      · rintro e s' ⟨h1, h2⟩; exact ⟨he1.trans h1, h2⟩
    | attrs =>
      rw [hrun]
      show Post (attrload W C (run W C n) v (.obj c)) s _ _
      rw [attrload_eq _ hk]
      cases hh : attrHints (W.cls c).fields with
      | error x =>
        have := attrHints_error _ _ hh
        subst this
        exact ⟨Ext.refl s, Or.inl ⟨hk, rfl, hh⟩⟩
      | ok hints => exact post_mangle he hc (infoFor_attrs hk hh)

theorem mangleOrRaise_nil (v : Val) (t : Ty) : mangleOrRaise C [] v t = pure v := rfl

/-- The equation of the class handlers: the class description does not depend on the data. -/
theorem objhandler_eq {c : Nat} {s : LState} (hc : Coh W C s)
    (ha : (W.cls c).kind = .attrs → ∃ hints, attrHints (W.cls c).fields = .ok hints) :
    ∃ info s1, InfoFor W C c info ∧ Ext W C s s1 ∧ ∀ n v, run W C (n + 1) (objHandler (W.cls c).kind) v (.obj c) s =
      (mangleOrRaise C info.transforms v (.obj c) >>= fun v' => objloader W C (run W C n) info v' c) s1 := by
  cases hk : (W.cls c).kind with
  | namedtuple => exact ⟨namedtupleInfo (W.cls c), s, infoFor_namedtuple hk, Ext.refl s, fun n v => by
      show namedtupleload W C (run W C n) v (.obj c) s = _
      rw [namedtupleload_eq _ hk]; rfl⟩
  | typeddict =>
    refine ⟨typeddictInfo (W.cls c) (s.tdRew.contains c), rewriteAnnotations W c s, infoFor_typeddict hk _, ?_, fun n v => by
      show typeddictload W C (run W C n) v (.obj c) s = _
      rw [typeddictload_eq _ hk]; rfl⟩
    unfold rewriteAnnotations; split
    · exact Ext.rew
    · exact Ext.refl s
  | attrs =>
    obtain ⟨hints, hh⟩ := ha hk
    refine ⟨attrInfo W C (W.cls c).fields hints, s, infoFor_attrs hk hh, Ext.refl s, fun n v => ?_⟩
    show attrload W C (run W C n) v (.obj c) s = _
    rw [attrload_eq _ hk, hh]
  | dataclass =>
    have : ∃ s1, dataclassCached W C c s = .ok (dataclassInfo C (W.cls c)) s1 ∧ Ext W C s s1 := by
      unfold dataclassCached
      simp only [M.bind_apply, M.get_apply]
      cases ho : aget s.objc c with
      | some i => rw [← hc.objc c i ho]; exact ⟨_, rfl, Ext.refl s⟩
      | none => exact ⟨_, rfl, Ext.objc ho⟩
    obtain ⟨s1, h1, h2⟩ := this
    refine ⟨dataclassInfo C (W.cls c), s1, infoFor_dataclass hk, h2, fun n v => ?_⟩
    show dataclassload W C (run W C n) v (.obj c) s = _
    rw [dataclassload_eq _ hk]
    rw [M.bind_apply, h1]

/-- A class handler that raises at once. -/
theorem raises_now {c : Nat} (hd : C.Usual W (.obj c)) {s : LState} (hc : Coh W C s) {v : Val}
    (ha : (W.cls c).kind = .attrs → ∃ hints, attrHints (W.cls c).fields = .ok hints) {cl : ExcClass} (hcl : cl.isTL = true)
    (h : ∀ (info : ObjInfo) (s1 : LState), InfoFor W C c info → ∃ e : Exc,
      (mangleOrRaise C info.transforms v (.obj c) >>= fun v' => objloader W C (run W C 0) info v' c) s1 = .err e s1 ∧ e.cls = cl) :
    ∃ e s', Raises W C s v (.obj c) e s' ∧ e.cls = cl := by
  have hp := hd.obj
  obtain ⟨info, s1, hi, _, heq⟩ := objhandler_eq (c := c) (hc.ext (cacheReg_ext (W := W) (s := s) hp)) ha
  obtain ⟨e, h1, h2⟩ := h info s1 hi
  refine ⟨_, s1, (raises_iff hc).2 (Or.inl ⟨1, _, e, hp, ?_, rfl⟩), ?_⟩
  · rw [heq, h1]
  · rw [(loadExc_tl (by unfold Exc.isTL; rw [h2]; exact hcl)).1, h2]

/-- A load into a class that returns. -/
theorem loads_obj {c : Nat} (hd : C.Usual W (.obj c)) {s : LState} (hc : Coh W C s) {v : Val} {r : Val} {s' : LState}
    (h : Loads W C s v (.obj c) r s') : ObjOk W C s v c r := by
  obtain ⟨n, h, hp, hr⟩ := (loads_iff hc).1 h
  rw [hd.obj] at hp; cases hp
  have he := cacheReg_ext (W := W) (s := s) (hd.obj)
  exact ((post_objhandler he (hc.ext he)).ok hr).2

/-- A load into a class that raises. -/
theorem raises_obj {c : Nat} (hd : C.Usual W (.obj c)) {s : LState} (hc : Coh W C s) {v : Val} {e : Exc} {s' : LState}
    (h : Raises W C s v (.obj c) e s') : ∃ e', ObjFail W C s v c e' ∧ e = loadExc v (.obj c) none e' := by
  rcases (raises_iff hc).1 h with ⟨n, h, e', hp, hr, rfl⟩ | ⟨x, hp, _⟩
  · rw [hd.obj] at hp; cases hp
    have he := cacheReg_ext (W := W) (s := s) (hd.obj)
    exact ⟨e', ((post_objhandler he (hc.ext he)).err hr).2, rfl⟩
  · rw [hd.obj] at hp; cases hp

/-- The value under the data name of a field, after renaming. -/
theorem Mangled.dget {c : Nat} {info : ObjInfo} (hi : InfoFor W C c info) (hw : WFNames C (W.cls c).kind (W.cls c).fields)
    {v : Val} {kvs kvs' : List (Val × Val)} (hm : Mangled C info.transforms v kvs kvs') (hn : (strKeys kvs).Nodup)
    {f : Field} (hf : f ∈ (W.cls c).fields) : dget kvs' (.str f.name) = dget kvs (.str (extName C (W.cls c).kind f)) := by
  rcases hm.2 with ⟨h1, rfl⟩ | ⟨_, _, h2⟩
  · have : renamed C (W.cls c).kind f = none := by
      cases hr : renamed C (W.cls c).kind f with
      | none => rfl
      | some n =>
        have := (transforms_aget hw n f.name).2 ⟨f, hf, hr, rfl⟩
        rw [← hi.transforms, h1] at this; cases this
    simp [extName, this]
  · rw [hi.transforms] at h2
    rw [mangleLoop_dget hw hf kvs [] kvs' hn h2]
    simp [TL.dget]

theorem Mangled.nodup {tr : List (String × String)}
    {v : Val} {kvs kvs' : List (Val × Val)} (hm : Mangled C tr v kvs kvs') (hn : (strKeys kvs).Nodup) : (strKeys kvs').Nodup := by
  rcases hm.2 with ⟨h1, rfl⟩ | ⟨_, _, h2⟩
  · exact hn
  · exact mangleLoop_nodup _ _ _ _ _ (by simp [strKeys]) h2

theorem DictData.unique {v : Val} {k1 k2 : List (Val × Val)} (h1 : DictData C v k1) (h2 : DictData C v k2) : k1 = k2 := by
  rcases h1 with h1 | ⟨a, h1, _, h1'⟩ <;> rcases h2 with h2 | ⟨b, h2, _, h2'⟩ <;> subst h1 <;> cases h2
  · rfl
  · rw [h1', h2']

end TL
