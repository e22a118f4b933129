import Verif.Lemmas.ObjClass
import Verif.Sample
/-!
# Loading into classes: C18, C20, C21, C22, C30, C37

The data of a class is a dictionary (or Namespace).  `extName C kind f` is the key under which the data of field `f` is found: the
name in the metadata of the field when there is one (dataclass and attrs), the name of the field otherwise.
-/

namespace TL

variable {W : World} {C : Config}

/-- The loaded object: `fs` are the fields given to the constructor or filled with defaults. -/
def Built (W : World) (c : Nat) (fs : List (String × Val)) (r : Val) : Prop :=
  match (W.cls c).kind with
  | .typeddict => False
  | .namedtuple => r = .nt c fs
  | .dataclass | .attrs => ∃ fs', W.initHook c fs = .ok fs' ∧ r = .inst c fs'

/-- What a field of the new object is, given the data: the data under the name of the field, loaded into the type of the field; or
the default of the field; a field that is not an argument of the constructor and has no default is left to the class. -/
inductive FieldFrom (W : World) (C : Config) (s : LState) (k : ObjKind) (kvs : List (Val × Val)) (f : Field) : List (String × Val) → Prop
  | loaded {x t y} : (.str (extName C k f), x) ∈ kvs → FieldTy k f t → AcceptsAs W C s x t y → FieldFrom W C s k kvs f [(f.name, y)]
  | default {d} : extName C k f ∉ strKeys kvs → f.default = some d → FieldFrom W C s k kvs f [(f.name, d)]
  | unset : extName C k f ∉ strKeys kvs → f.default = none → f.init = false → FieldFrom W C s k kvs f []

theorem fillFields_zip {params : List (String × Val)} {P : Field → List (String × Val) → Prop} :
    ∀ {fs : List Field} {r : List (String × Val)}, (∀ f ∈ fs, ∀ l, fillField params f = .ok l → P f l) →
      fillFields params fs = .ok r → ∃ ls, Zip2 P fs ls ∧ r = ls.flatten
  | [], r, _, h => by cases h; exact ⟨[], .nil, rfl⟩
  | f :: fs, r, hp, h => by
    simp only [fillFields] at h
    cases hf : fillField params f with
    | error e => rw [hf] at h; cases h
    | ok p =>
      rw [hf] at h; dsimp only at h
      cases hr : fillFields params fs with
      | error e => rw [hr] at h; cases h
      | ok ps =>
        rw [hr] at h; cases h
        obtain ⟨ls, h1, rfl⟩ := fillFields_zip (fun g hg => hp g (by simp [hg])) hr
        exact ⟨p :: ls, .cons (hp f (by simp) p hf) h1, by simp⟩

theorem construct_built {c : Nat} {params : List (String × Val)} {r : Val} (hk : (W.cls c).kind ≠ .typeddict)
    (h : construct W c params = .ok r) : ∃ fs, fillFields params (W.cls c).fields = .ok fs ∧ Built W c fs r := by
  unfold construct at h
  unfold Built
  cases hk' : (W.cls c).kind with
  | typeddict => exact absurd hk' hk
  | namedtuple =>
    dsimp only at h; rw [hk'] at h; dsimp only at h
    cases hf : fillFields params (W.cls c).fields with
    | error e => rw [hf] at h; cases h
    | ok fs => rw [hf] at h; cases h; exact ⟨fs, rfl, rfl⟩
  | dataclass =>
    dsimp only at h; rw [hk'] at h; dsimp only at h
    split at h
    · cases hf : fillFields params (W.cls c).fields with
      | error e => rw [hf] at h; cases h
      | ok fs =>
        rw [hf] at h; dsimp only at h
        cases hi : W.initHook c fs with
        | error e => rw [hi] at h; cases h
        | ok fs' => rw [hi] at h; cases h; exact ⟨fs, rfl, fs', hi, rfl⟩
    · cases h
  | attrs =>
    dsimp only at h; rw [hk'] at h; dsimp only at h
    split at h
    · cases hf : fillFields params (W.cls c).fields with
      | error e => rw [hf] at h; cases h
      | ok fs =>
        rw [hf] at h; dsimp only at h
        cases hi : W.initHook c fs with
        | error e => rw [hi] at h; cases h
        | ok fs' => rw [hi] at h; cases h; exact ⟨fs, rfl, fs', hi, rfl⟩
    · cases h

/-- The parameters given to the constructor, in terms of the data. -/
theorem params_spec {s : LState} {c : Nat} {info : ObjInfo} (hi : InfoFor W C c info)
    (hw : WFNames C (W.cls c).kind (W.cls c).fields) {v : Val} {kvs kvs' : List (Val × Val)}
    (hm : Mangled C info.transforms v kvs kvs') (hn : (strKeys kvs).Nodup) {params : List (String × Val)}
    (hp : ObjParams W C s info kvs' [] params) {f : Field} (hf : f ∈ (W.cls c).fields) :
    (∀ y, aget params f.name = some y → ∃ x t, (.str (extName C (W.cls c).kind f), x) ∈ kvs ∧ FieldTy (W.cls c).kind f t ∧
      AcceptsAs W C s x t y) ∧
    (aget params f.name = none → extName C (W.cls c).kind f ∉ strKeys kvs) := by
  have hdg := hm.dget hi hw hn hf
  constructor
  · intro y hy
    rcases hp.sound _ _ (aget_mem hy) with h | ⟨x, ft, h1, _, h3, h4⟩
    · cases h
    · obtain ⟨g, hg, hgn, hgt⟩ := hi.hints _ _ h3
      have : g = f := nodup_map_inj hw.names hg hf hgn
      subst this
      refine ⟨x, ft, dget_mem_str ?_, hgt, h4⟩
      rw [← hdg]
      exact dget_of_mem_str (hm.nodup hn) h1
  · intro hnone
    rw [← dget_none_str, ← hdg, dget_none_str]
    intro hmem
    obtain ⟨x, hx⟩ := mem_strKeys.1 hmem
    have := hp.complete _ _ hx (by rw [hi.fields]; exact List.mem_map.2 ⟨f, hf, rfl⟩)
    rw [hnone] at this; cases this

/-! ## C21 -/

/-- **C21, C37** A loaded NamedTuple, dataclass or attrs object is built from exactly one entry per field, in the order of the
class: the data under the key of the field loaded into the type of the field (for attrs fields with a converter, the type of the
parameter of the converter), or the declared default when the data has no such key. -/
theorem C21_fields {s s' : LState} {c : Nat} (hd : C.Usual W (.obj c)) (hs : Reachable W C s) {v r : Val} {kvs : List (Val × Val)}
    (hk : (W.cls c).kind ≠ .typeddict) (hw : WFNames C (W.cls c).kind (W.cls c).fields) (hdata : DictData C v kvs)
    (hn : (strKeys kvs).Nodup) (h : Loads W C s v (.obj c) r s') :
    ∃ ls, Zip2 (FieldFrom W C s (W.cls c).kind kvs) (W.cls c).fields ls ∧ Built W c ls.flatten r := by
  obtain ⟨info, kvs1, kvs', params, hi, hm, _, _, hp, hcon⟩ := loads_obj hd hs.coh h
  have := hm.1.unique hdata; subst this
  obtain ⟨fs, hf, hb⟩ := construct_built hk hcon
  have hall : ∀ f ∈ (W.cls c).fields, ∀ l, fillField params f = .ok l → FieldFrom W C s (W.cls c).kind kvs1 f l := by
    intro f hf l hl
    have hsp := params_spec hi hw hm hn hp hf
    unfold fillField at hl
    cases ha : aget params f.name with
    | some y =>
      rw [ha] at hl; cases hl
      obtain ⟨x, t, h1, h2, h3⟩ := hsp.1 y ha
      exact .loaded h1 h2 h3
    | none =>
      rw [ha] at hl; dsimp only at hl
      cases hdf : f.default with
      | some d => rw [hdf] at hl; cases hl; exact .default (hsp.2 ha) hdf
      | none =>
        rw [hdf] at hl; dsimp only at hl
        split at hl
        · cases hl
        · rename_i hini; cases hl; exact .unset (hsp.2 ha) hdf (by simpa using hini)
  obtain ⟨ls, h1, rfl⟩ := fillFields_zip hall hf
  exact ⟨ls, h1, hb⟩

/-- The hypotheses of C21 hold for the sample dataclass `P`, which has a renamed field and a default. -/
example : (Sample.W.cls 0).kind ≠ .typeddict ∧ WFNames Sample.C (Sample.W.cls 0).kind (Sample.W.cls 0).fields ∧
    DictData Sample.C (.dict [(.str "x", .str "5"), (.str "zed", .str "q")]) [(.str "x", .str "5"), (.str "zed", .str "q")] ∧
    (strKeys [(Val.str "x", Val.str "5"), (.str "zed", .str "q")]).Nodup ∧
    ∃ s', Loads Sample.W Sample.C (fresh []) (.dict [(.str "x", .str "5"), (.str "zed", .str "q")]) (.obj 0)
      (.inst 0 [("x", .int 5), ("z", .str "q"), ("y", .int 5)]) s' :=
  ⟨by decide, ⟨by decide, by decide⟩, Or.inl rfl, by decide, _, 5, rfl⟩

/-- **C37** The type of a field with a converter: the data reaching an attrs object through a field with a converter whose
parameter is annotated `t` was loaded into `t`. -/
theorem C37_converter {s s' : LState} {c : Nat} (hd : C.Usual W (.obj c)) (hs : Reachable W C s) {v r : Val} {kvs : List (Val × Val)}
    (hk : (W.cls c).kind = .attrs) (hw : WFNames C .attrs (W.cls c).fields) (hdata : DictData C v kvs)
    (hn : (strKeys kvs).Nodup) (h : Loads W C s v (.obj c) r s') {f : Field} (hf : f ∈ (W.cls c).fields) {cv : Conv} {t : Ty}
    (hcv : f.conv = some cv) (ht : cv.params = [t]) {x : Val} (hx : (.str (extName C .attrs f), x) ∈ kvs) :
    ∃ y fs fs', AcceptsAs W C s x t y ∧ (f.name, y) ∈ fs ∧ W.initHook c fs = .ok fs' ∧ r = .inst c fs' := by
  obtain ⟨ls, hz, hb⟩ := C21_fields hd hs (by rw [hk]; decide) (by rw [hk]; exact hw) hdata hn h
  unfold Built at hb
  simp only [hk] at hb
  obtain ⟨fs', hi, hr⟩ := hb
  have : ∀ {fs : List Field} {ls : List (List (String × Val))}, Zip2 (FieldFrom W C s (W.cls c).kind kvs) fs ls → f ∈ fs →
      ∃ l ∈ ls, FieldFrom W C s (W.cls c).kind kvs f l := by
    intro fs ls hz
    induction hz with
    | nil => intro h; cases h
    | cons h1 _ ih =>
      intro hm
      rcases List.mem_cons.1 hm with rfl | hm
      · exact ⟨_, by simp, h1⟩
      · obtain ⟨l, h2, h3⟩ := ih hm; exact ⟨l, by simp [h2], h3⟩
  obtain ⟨l, hl, hff⟩ := this hz hf
  rw [hk] at hff
  cases hff with
  | loaded h1 h2 h3 =>
    rename_i x' t' y
    have hxx : x' = x := by
      have a := dget_of_mem_str hn h1
      have b := dget_of_mem_str hn hx
      rw [a] at b; cases b; rfl
    subst hxx
    have : t' = t := by
      cases h2 with
      | declared h => rw [h rfl] at hcv; cases hcv
      | converter cv' _ h4 h5 _ => rw [hcv] at h4; cases h4; rw [ht] at h5; cases h5; rfl
      | untyped cv' _ h4 h5 _ => rw [hcv] at h4; cases h4; rw [ht] at h5; cases h5
      | manyHints cv' _ h4 h5 => rw [hcv] at h4; cases h4; rw [ht] at h5; simp only [List.length_singleton] at h5; split at h5 <;> omega
    subst this
    exact ⟨y, ls.flatten, fs', h3, List.mem_flatten.2 ⟨_, hl, by simp⟩, hi, hr⟩
  | default h1 _ => exact absurd (mem_strKeys.2 ⟨x, hx⟩) h1
  | unset h1 _ _ => exact absurd (mem_strKeys.2 ⟨x, hx⟩) h1

example : (Sample.W.cls 3).kind = .attrs ∧ ∃ s', Loads Sample.W Sample.C (fresh []) (.dict [(.str "u", .str "5")]) (.obj 3)
    (.inst 3 [("u", .int 5)]) s' := ⟨rfl, _, 5, rfl⟩

/-- **C37** A converter without annotated parameter: the data is passed to the constructor as it is. -/
theorem C37_untyped {s s' : LState} {c : Nat} (hd : C.Usual W (.obj c)) (hda : C.Usual W .any) (hs : Reachable W C s) {v r : Val} {kvs : List (Val × Val)}
    (hk : (W.cls c).kind = .attrs) (hw : WFNames C .attrs (W.cls c).fields) (hdata : DictData C v kvs)
    (hn : (strKeys kvs).Nodup) (h : Loads W C s v (.obj c) r s') {f : Field} (hf : f ∈ (W.cls c).fields) {cv : Conv}
    (hcv : f.conv = some cv) (ht : cv.params = []) {x : Val} (hx : (.str (extName C .attrs f), x) ∈ kvs) :
    ∃ fs fs', (f.name, x) ∈ fs ∧ W.initHook c fs = .ok fs' ∧ r = .inst c fs' := by
  obtain ⟨ls, hz, hb⟩ := C21_fields hd hs (by rw [hk]; decide) (by rw [hk]; exact hw) hdata hn h
  unfold Built at hb
  simp only [hk] at hb
  obtain ⟨fs', hi, hr⟩ := hb
  have : ∀ {fs : List Field} {ls : List (List (String × Val))}, Zip2 (FieldFrom W C s (W.cls c).kind kvs) fs ls → f ∈ fs →
      ∃ l ∈ ls, FieldFrom W C s (W.cls c).kind kvs f l := by
    intro fs ls hz
    induction hz with
    | nil => intro h; cases h
    | cons h1 _ ih =>
      intro hm
      rcases List.mem_cons.1 hm with rfl | hm
      · exact ⟨_, by simp, h1⟩
      · obtain ⟨l, h2, h3⟩ := ih hm; exact ⟨l, by simp [h2], h3⟩
  obtain ⟨l, hl, hff⟩ := this hz hf
  rw [hk] at hff
  cases hff with
  | loaded h1 h2 h3 =>
    rename_i x' t' y
    have hxx : x' = x := by
      have a := dget_of_mem_str hn h1
      have b := dget_of_mem_str hn hx
      rw [a] at b; cases b; rfl
    subst hxx
    have : t' = .any := by
      cases h2 with
      | declared h => rw [h rfl] at hcv; cases hcv
      | converter cv' _ h4 h5 _ => rw [hcv] at h4; cases h4; rw [ht] at h5; cases h5
      | untyped cv' _ h4 h5 _ => rfl
      | manyHints cv' _ h4 h5 => rfl
    subst this
    obtain ⟨s1, s2, he, hl2⟩ := h3
    have hyx : y = x' := by
      obtain ⟨n, hh, hp, hr⟩ := (loads_iff (hs.coh.ext he)).1 hl2
      rw [hda.any] at hp; cases hp
      cases n with
      | zero => cases hr
      | succ n => cases hr; rfl
    subst hyx
    exact ⟨ls.flatten, fs', List.mem_flatten.2 ⟨_, hl, by simp⟩, hi, hr⟩
  | default h1 _ => exact absurd (mem_strKeys.2 ⟨x, hx⟩) h1
  | unset h1 _ _ => exact absurd (mem_strKeys.2 ⟨x, hx⟩) h1

/-! ## C18 -/

theorem missing_refused {s : LState} {c : Nat} (hd : C.Usual W (.obj c)) (hcoh : Coh W C s) {v : Val} {kvs : List (Val × Val)}
    (hw : WFNames C (W.cls c).kind (W.cls c).fields) (hdata : DictData C v kvs) (hn : (strKeys kvs).Nodup) {f : Field}
    (hf : f ∈ (W.cls c).fields) (hr : Required (W.cls c).kind f) (hx : extName C (W.cls c).kind f ∉ strKeys kvs) :
    ∀ r s', ¬ Loads W C s v (.obj c) r s' := by
  intro r s' h
  obtain ⟨info, kvs1, kvs', params, hi, hm, hnec, _, hp, hcon⟩ := loads_obj hd hcoh h
  have := hm.1.unique hdata; subst this
  have hdg := hm.dget hi hw hn hf
  by_cases hk : (W.cls c).kind = .attrs
  · have hr' := hr
    rw [hk] at hr'
    obtain ⟨fs, hff, _⟩ := construct_built (by rw [hk]; decide) hcon
    obtain ⟨ls, hz, _⟩ := fillFields_zip (P := fun g l => fillField params g = .ok l) (fun g _ l h => h) hff
    have hsp := params_spec hi hw hm hn hp hf
    have : ∀ {fs : List Field} {ls : List (List (String × Val))}, Zip2 (fun g l => fillField params g = .ok l) fs ls → f ∈ fs →
        ∃ l, fillField params f = .ok l := by
      intro fs ls hz
      induction hz with
      | nil => intro h; cases h
      | cons h1 _ ih =>
        intro hm
        rcases List.mem_cons.1 hm with rfl | hm
        · exact ⟨_, h1⟩
        · exact ih hm
    obtain ⟨l, hl⟩ := this hz hf
    unfold fillField at hl
    cases ha : aget params f.name with
    | some y =>
      obtain ⟨x, t, h1, _⟩ := hsp.1 y ha
      exact hx (mem_strKeys.2 ⟨x, h1⟩)
    | none => rw [ha, hr'.2, hr'.1] at hl; simp at hl
  · have := hnec _ (hi.nec f hf hr hk)
    rw [← dget_none_str, ← hdg, dget_none_str] at hx
    exact hx this

/-- **C18** Data lacking the key of a required field is never loaded, whatever else it holds, for the four kinds of classes. -/
theorem C18_missing_refused {s : LState} {c : Nat} (hd : C.Usual W (.obj c)) (hs : Reachable W C s) {v : Val} {kvs : List (Val × Val)}
    (hw : WFNames C (W.cls c).kind (W.cls c).fields) (hdata : DictData C v kvs) (hn : (strKeys kvs).Nodup) {f : Field}
    (hf : f ∈ (W.cls c).fields) (hr : Required (W.cls c).kind f) (hx : extName C (W.cls c).kind f ∉ strKeys kvs) :
    ∀ r s', ¬ Loads W C s v (.obj c) r s' :=
  missing_refused hd hs.coh hw hdata hn hf hr hx

/-- **C18** For NamedTuple, dataclass and TypedDict classes the outcome is a TypedloadValueError, whatever the other fields hold. -/
theorem C18_missing_error {s : LState} {c : Nat} (hd : C.Usual W (.obj c)) (hs : Reachable W C s) {kvs : List (Val × Val)}
    (hw : WFNames C (W.cls c).kind (W.cls c).fields) (hn : (strKeys kvs).Nodup) {f : Field}
    (hk : (W.cls c).kind ≠ .attrs)
    (hf : f ∈ (W.cls c).fields) (hr : Required (W.cls c).kind f) (hx : extName C (W.cls c).kind f ∉ strKeys kvs) :
    ∃ e s', Raises W C s (.dict kvs) (.obj c) e s' ∧ e.cls = .tlValue := by
  refine raises_now hd hs.coh (fun h => absurd h hk) rfl (fun info s1 hi => ?_)
  rw [M.bind_apply]
  unfold mangleOrRaise
  cases hmg : mangle_names info.transforms (.dict kvs) C.failonextra with
  | error x =>
    obtain ⟨_, ⟨h, _⟩ | ⟨_, rfl, _⟩⟩ := mangle_names_error hmg
    · exact absurd rfl (h kvs)
    · exact ⟨_, rfl, rfl⟩
  | ok v' =>
    have : ∃ kvs', v' = .dict kvs' ∧ Mangled C info.transforms (.dict kvs) kvs kvs' := by
      rcases mangle_names_ok hmg with ⟨h1, rfl⟩ | ⟨k1, k2, h1, rfl, h3⟩
      · exact ⟨kvs, rfl, Or.inl rfl, Or.inl ⟨h1, rfl⟩⟩
      · cases h1; exact ⟨k2, rfl, Or.inl rfl, Or.inr ⟨rfl, h3⟩⟩
    obtain ⟨kvs', rfl, hm⟩ := this
    have hdg := hm.dget hi hw hn hf
    have hno : f.name ∉ strKeys kvs' := by rw [← dget_none_str, hdg, dget_none_str]; exact hx
    have : info.necessary.all (fun n => dhas kvs' (.str n)) = false := by
      cases ha : info.necessary.all (fun n => dhas kvs' (.str n)) with
      | false => rfl
      | true =>
        rw [List.all_eq_true] at ha
        exact absurd ((dhas_str kvs' f.name).1 (ha _ (hi.nec f hf hr hk))) hno
    simp only [M.pure_apply]
    unfold objloader objItems
    simp only [this]
    exact ⟨_, rfl, rfl⟩

/-- The renamed field of `P` is required under its data name: giving it under its Python name is refused. -/
example : Required (Sample.W.cls 0).kind (Sample.clsP.fields[1]'(by decide)) ∧
    extName Sample.C (Sample.W.cls 0).kind (Sample.clsP.fields[1]'(by decide)) ∉ strKeys [(Val.str "x", Val.int 1), (.str "z", .str "q")] :=
  ⟨⟨rfl, rfl⟩, by decide⟩

end TL
