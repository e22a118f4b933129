import Verif.Lemmas.Quiet
import Verif.Props.Complete
/-!
# Loading the data of an old program into the types of a new one: classes
-/

namespace TL

set_option linter.unusedSectionVars false

variable {W : World} {C : Config} {V : Nat → Nat → Prop} {Γ Γ' : Env} {v0 : Val} {t0 : Ty}

section
variable {α β : Type} {Q : α → β → Prop}
/-- A load that does not return, and does not raise StopIteration. -/
def Bad (m : R α) : Prop := (∀ a u, m () ≠ .ok a u) ∧ ∀ e u, m () = .err e u → e.cls ≠ .stopIteration

theorem Bad.up {m : R α} (h : Bad m) (m' : Nat → R β) : Up Q m m' := by
  unfold Up
  cases hm : m () with
  | ok a u => exact absurd hm (h.1 a u)
  | err e u => exact fun hc => absurd hc (h.2 e u hm)
  | div => trivial

theorem Bad.throw {e : Exc} (h : e.cls ≠ .stopIteration) : Bad (M.throw e : R α) :=
  ⟨fun a u hm => (by cases hm), fun e' u hm => (by cases hm; exact h)⟩

end

/-! ## Handlers -/

theorem Newer.pick (hd : C.Default) {t t' : Ty} (hn : Newer W C V Γ Γ' t t') {h : Handler} (hp : pick W C t = .ok h) : ∃ h', TL.pick W C t' = .ok h' := by
  cases hn with
  | same _ => exact ⟨h, hp⟩
  | lit _ => exact ⟨_, pick_lit hd _⟩
  | coll _ _ => exact ⟨_, pick_coll hd _ _⟩
  | tuple _ _ => exact ⟨_, pick_tuple hd _⟩
  | dict _ _ => exact ⟨_, pick_dict hd _ _⟩
  | newtype _ => exact ⟨_, pick_newtype hd _ _⟩
  | fref => exact ⟨_, pick_fref hd _⟩
  | obj _ => exact ⟨_, pick_obj hd _⟩
  | toOptional _ _ _ _ _ => exact ⟨_, pick_union hd _⟩
  | optional _ _ _ _ _ _ => exact ⟨_, pick_union hd _⟩

theorem Up.call {α β : Type} {Q : α → β → Prop} (hd : C.Default) {t t' : Ty} {e e' : Exc} (hn : Newer W C V Γ Γ' t t') (he : e.cls ≠ .stopIteration)
    {f : Handler → R α} {f' : Nat → Handler → R β} (hf : ∀ h h', pick W C t = .ok h → pick W C t' = .ok h' → Up Q (f h) (fun m => f' m h')) :
    Up Q (Ref.resolve W C t e >>= f) (fun m => Ref.resolve W C t' e' >>= f' m) := by
  unfold Ref.resolve
  cases hp : TL.pick W C t with
  | ok h =>
    obtain ⟨h', hp'⟩ := hn.pick hd hp
    rw [hp']
    exact hf h h' hp hp'
  | error c =>
    have := pick_error hd hp; subst this
    refine Up.throw (e := e) _ he

/-! ## Classes -/

/-- The field is among the necessary ones in the description of a class. -/
def necField (W : World) (k : ObjKind) (f : Field) : Bool :=
  match k with
  | .namedtuple => f.default.isNone
  | .dataclass => f.init && f.default.isNone
  | .attrs => W.attrsSentinel && f.default.isNone && f.init
  | .typeddict => f.required && !(f.notRequired && !false)

theorem necField_required {k : ObjKind} {f : Field} (h : necField W k f = true) : Required k f := by
  unfold necField at h
  unfold Required
  cases k <;> simp_all

/-- The fields whose absence is noticed before anything is loaded. -/
theorem required_nec {k : ObjKind} {f : Field} (h : Required k f) (hk : k = .attrs → W.attrsSentinel = true) : necField W k f = true := by
  unfold Required at h
  unfold necField
  cases k <;> simp_all

theorem NewerField.nec {k : ObjKind} {f g : Field} (h : NewerField W C V Γ Γ' k k f g) (hg : necField W k g = true) : necField W k f = true := by
  refine required_nec (h.required (necField_required hg)) ?_
  rintro rfl
  simp only [necField, Bool.and_eq_true] at hg
  exact hg.1.1

/-- The class handlers of the loader without caches. -/
theorem ref_classHandler (Γ : Env) (c : Nat) (hh : (W.cls c).kind = .attrs → ∀ f ∈ (W.cls c).fields, ∃ t, FieldTy .attrs f t) :
    ∃ info, InfoFor W C c info ∧ (∀ n, n ∈ info.necessary ↔ ∃ f ∈ (W.cls c).fields, f.name = n ∧ necField W (W.cls c).kind f = true) ∧
      ∀ rec v, Ref.step W C Γ rec (objHandler (W.cls c).kind) v (.obj c) = Ref.objMangled W C rec info v c := by
  have mem : ∀ (p : Field → Bool) (n : String), n ∈ ((W.cls c).fields.filter p).map (·.name) ↔ ∃ f ∈ (W.cls c).fields, f.name = n ∧ p f = true := by
    intro p n
    simp only [List.mem_map, List.mem_filter]
    constructor
    · rintro ⟨f, ⟨h1, h2⟩, h3⟩; exact ⟨f, h1, h3, h2⟩
    · rintro ⟨f, h1, h3, h2⟩; exact ⟨f, ⟨h1, h2⟩, h3⟩
  cases hk : (W.cls c).kind with
  | namedtuple =>
    refine ⟨_, infoFor_namedtuple hk, fun n => mem _ n, fun rec v => ?_⟩
    show Ref.namedtupleload W C rec v (.obj c) = _
    simp only [Ref.namedtupleload, hk, if_true]
    rfl
  | dataclass =>
    refine ⟨_, infoFor_dataclass hk, fun n => mem _ n, fun rec v => ?_⟩
    show Ref.dataclassload W C rec v (.obj c) = _
    simp only [Ref.dataclassload, hk, if_true]
  | attrs =>
    obtain ⟨hints, hh⟩ := attrHints_total _ (hh hk)
    refine ⟨_, infoFor_attrs hk hh, fun n => mem _ n, fun rec v => ?_⟩
    show Ref.attrload W C rec v (.obj c) = _
    simp only [Ref.attrload, hk, if_true, hh]
  | typeddict =>
    refine ⟨_, infoFor_typeddict hk false, fun n => mem _ n, fun rec v => ?_⟩
    show Ref.typeddictload W C rec v (.obj c) = _
    simp only [Ref.typeddictload, hk, if_true]
    rfl

theorem mem_given {k : ObjKind} {fs : List Field} (hw : WFNames C k fs) {kvs : List (Val × Val)} {n : String} {x : Val} (h : (n, x) ∈ given C k fs kvs) :
    ∃ f ∈ fs, f.name = n ∧ (.str (extName C k f), x) ∈ kvs := by
  unfold given at h
  obtain ⟨⟨a, y⟩, hp, he⟩ := List.mem_filterMap.1 h
  dsimp only at he
  cases hf : fieldOf C k fs a with
  | none => rw [hf] at he; cases he
  | some m =>
    rw [hf] at he
    cases he
    obtain ⟨f, hfm, rfl, rfl⟩ := (fieldOf_iff hw).1 hf
    exact ⟨f, hfm, rfl, hp⟩

theorem ext_keyOf {c : Nat} {f : Field} (hf : f ∈ (W.cls c).fields) : KeyOf C (W.cls c) f (extName C (W.cls c).kind f) := by
  unfold extName
  cases hr : renamed C (W.cls c).kind f with
  | none => exact .name
  | some m => exact .renamed f hf rfl hr

/-- The renamed data. -/
theorem mangled_ok {tr : List (String × String)} {kvs : List (Val × Val)} {v' : Val} (h : mangle_names tr (.dict kvs) C.failonextra = .ok v') :
    ∃ kvs', v' = .dict kvs' ∧ Mangled C tr (.dict kvs) kvs kvs' := by
  rcases mangle_names_ok h with ⟨h1, rfl⟩ | ⟨a, b, h1, rfl, h2, h3⟩
  · exact ⟨kvs, rfl, Or.inl rfl, Or.inl ⟨h1, rfl⟩⟩
  · cases h1
    exact ⟨b, rfl, Or.inl rfl, Or.inr ⟨rfl, h2, h3⟩⟩

/-- A key known to the old class is known to the new one. -/
theorem NewerClass.known {c d : Nat} (hu : NewerClass W C V Γ Γ' c d) {k : Val} (h : KnownKey W C c k) : KnownKey W C d k := by
  obtain ⟨f, hf, rfl⟩ := h
  obtain ⟨g, hg, hn⟩ := hu.kept f hf
  exact ⟨g, hg, by rw [hn.key]⟩

/-- Known keys are not dropped. -/
theorem mangle_total {d : Nat} {info : ObjInfo} (hi : InfoFor W C d info) (hw : WFNames C (W.cls d).kind (W.cls d).fields) {kvs : List (Val × Val)}
    (hk : C.failonextra = true → ∀ p ∈ kvs, KnownKey W C d p.1) : ∃ v', mangle_names info.transforms (.dict kvs) C.failonextra = .ok v' := by
  cases h : mangle_names info.transforms (.dict kvs) C.failonextra with
  | ok v' => exact ⟨v', rfl⟩
  | error e =>
    exfalso
    obtain ⟨_, ⟨h1, _⟩ | ⟨hf, _, kvs', n, x, h1, h2, h3⟩⟩ := mangle_names_error h
    · exact h1 kvs rfl
    · cases h1
      obtain ⟨f, hfm, he⟩ := hk hf _ h2
      cases he
      rw [hi.transforms, keyFate_ext hw hfm] at h3
      split at h3 <;> cases h3

theorem mangled_known {d : Nat} {info : ObjInfo} (hi : InfoFor W C d info) (hw : WFNames C (W.cls d).kind (W.cls d).fields) {kvs kvs' : List (Val × Val)}
    (hm : Mangled C info.transforms (.dict kvs) kvs kvs') (hk : ∀ p ∈ kvs, KnownKey W C d p.1) : extraKeys info kvs' = [] := by
  unfold extraKeys
  rw [List.filter_eq_nil_iff]
  intro a ha
  obtain ⟨p, hp, rfl⟩ := List.mem_map.1 ha
  have : isFieldKey info.fields p.1 = true := by
    rw [hi.fields]
    rcases hm.2 with ⟨h1, rfl⟩ | ⟨_, _, h2⟩
    · obtain ⟨f, hf, he⟩ := hk p hp
      refine isFieldKey_iff.2 ⟨f.name, List.mem_map.2 ⟨f, hf, rfl⟩, ?_⟩
      rw [he]
      cases hr : renamed C (W.cls d).kind f with
      | none => simp [extName, hr]
      | some m =>
        have := (transforms_aget hw m f.name).2 ⟨f, hf, hr, rfl⟩
        rw [← hi.transforms, h1] at this; cases this
    · rw [hi.transforms] at h2
      exact mangleLoop_known hw _ _ hk [] kvs' (fun p hp => by cases hp) h2 p hp
  simp [this]

section
variable {rec : Ref.Rec} {rec' : Nat → Ref.Rec} (hd : C.Default)
  (hrec : ∀ x t t' h h', pick W C t = .ok h → pick W C t' = .ok h' → Reaches W C Γ v0 t0 x t → Newer W C V Γ Γ' t t' →
    Up (Grown W V) (rec h x t) (fun m => rec' m h' x t'))
include hd hrec

/-- The data of the fields. -/
theorem Up.objFields {c d : Nat} (hu : NewerClass W C V Γ Γ' c d) {info info' : ObjInfo} (hi : InfoFor W C c info) (hi' : InfoFor W C d info')
    {v v' : Val} {t t' : Ty} (l : List (String × Val))
    (hl : ∀ n x, (n, x) ∈ l → ∃ f ∈ (W.cls c).fields, f.name = n ∧ ∀ ft, FieldTy (W.cls c).kind f ft → Reaches W C Γ v0 t0 x ft) :
    ∀ acc acc', GrownArgs W V acc acc' → (∀ n x, aget acc n = some x → n ∈ (W.cls c).fields.map (·.name)) →
    Up (fun ps qs => GrownArgs W V ps qs ∧ ∀ n x, aget ps n = some x → n ∈ (W.cls c).fields.map (·.name))
      (Ref.objFields W C rec info v t (l.map (fun p => (.str p.1, p.2))) acc)
      (fun m => Ref.objFields W C (rec' m) info' v' t' (l.map (fun p => (.str p.1, p.2))) acc') := by
  induction l with
  | nil => intro acc acc' h1 h2; exact Up.pure ⟨h1, h2⟩
  | cons p l ih =>
    obtain ⟨n, x⟩ := p
    intro acc acc' hacc hsub
    obtain ⟨f, hf, rfl, hre⟩ := hl n x (by simp)
    obtain ⟨g, hg, hn⟩ := hu.kept f hf
    have hm : info.fields.contains f.name = true := by
      rw [hi.fields, List.contains_iff_mem]; exact List.mem_map.2 ⟨f, hf, rfl⟩
    have hm' : info'.fields.contains f.name = true := by
      rw [hi'.fields, List.contains_iff_mem]; exact List.mem_map.2 ⟨g, hg, hn.name⟩
    simp only [List.map_cons, Ref.objFields, hm, hm', if_true]
    obtain ⟨ft, hft⟩ := Option.isSome_iff_exists.1 (hi.hints_some f hf)
    obtain ⟨ft', hft'⟩ := Option.isSome_iff_exists.1 (hi'.hints_some g hg)
    rw [hn.name] at hft'
    simp only [hft, hft']
    have hty : FieldTy (W.cls c).kind f ft := by
      obtain ⟨f', hf', h1, h2⟩ := hi.hints _ _ hft
      have := nodup_map_inj hu.oldNames.names hf' hf h1
      subst this; exact h2
    have hty' : FieldTy (W.cls d).kind g ft' := by
      obtain ⟨g', hg', h1, h2⟩ := hi'.hints _ _ hft'
      have := nodup_map_inj hu.newNames.names hg' hg (by rw [h1, hn.name])
      subst this; exact h2
    have hnt := hn.type ft ft' hty hty'
    refine Up.call hd hnt (by simp [mkExc]) (fun h h' hp hp' => ?_)
    refine Up.bind (Q := Grown W V) ?_ (fun y y' hy => ?_)
    · have h0 := hrec x ft ft' h h' hp hp' (hre ft hty) hnt
      have e1 : (fun e : Exc => if e.isTL = true then (M.throw (e.push ⟨v, t, some (.field f.name)⟩) : R Val) else M.throw e) =
          fun e => M.throw (if e.isTL = true then e.push ⟨v, t, some (.field f.name)⟩ else e) := by
        funext e; split <;> rfl
      have e2 : (fun e : Exc => if e.isTL = true then (M.throw (e.push ⟨v', t', some (.field f.name)⟩) : R Val) else M.throw e) =
          fun e => M.throw (if e.isTL = true then e.push ⟨v', t', some (.field f.name)⟩ else e) := by
        funext e; split <;> rfl
      rw [e1, e2]
      refine Up.rescue h0 (fun e he => ?_) (fun e e' he he' _ => ?_)
      · split at he
        · rw [Exc.cls_push] at he; exact he
        · exact he
      · split
        · rw [Exc.cls_push]; exact he'
        · exact he'
    · refine ih (fun n z hz => hl n z (by simp [hz])) _ _ (hacc.aset hy) (fun n z hz => ?_)
      by_cases hnn : f.name = n
      · subst hnn; exact List.mem_map.2 ⟨f, hf, rfl⟩
      · rw [aget_aset, if_neg hnn] at hz
        exact hsub n z hz

omit hd hrec in
theorem mem_named {names : List String} {kvs : List (Val × Val)} {n : String} (h : n ∈ names) : n ∈ strKeys kvs ↔ n ∈ (named names kvs).map (·.1) := by
  rw [mem_strKeys]
  unfold named
  simp only [List.mem_map, List.mem_filterMap]
  constructor
  · rintro ⟨x, hx⟩
    exact ⟨(n, x), ⟨(.str n, x), hx, by simp [strKey, h]⟩, rfl⟩
  · rintro ⟨⟨m, x⟩, ⟨⟨k, y⟩, hp, he⟩, rfl⟩
    cases hk : strKey k with
    | none => rw [hk] at he; cases he
    | some m' =>
      rw [hk] at he
      simp only [Option.bind_some] at he
      split at he
      · cases he
        refine ⟨x, ?_⟩
        cases k <;> simp [strKey] at hk
        subst hk; exact hp
      · cases he

omit hd hrec in
/-- The arguments are the data of the fields. -/
theorem objFields_dom {info : ObjInfo} {v : Val} {t : Ty} (l : List (String × Val)) : ∀ acc ps u,
    Ref.objFields W C rec info v t (l.map (fun p => (.str p.1, p.2))) acc () = .ok ps u →
    ∀ n, (aget ps n).isSome = true ↔ (aget acc n).isSome = true ∨ (info.fields.contains n = true ∧ n ∈ l.map (·.1)) := by
  induction l with
  | nil => intro acc ps u h n; cases h; simp
  | cons p l ih =>
    obtain ⟨m, x⟩ := p
    intro acc ps u h n
    simp only [List.map_cons, Ref.objFields] at h
    by_cases hm : info.fields.contains m = true
    · rw [if_pos hm] at h
      cases hh : aget info.hints m with
      | none => rw [hh] at h; cases h
      | some ft =>
        rw [hh] at h
        dsimp only at h
        rw [M.bind_apply] at h
        cases hr : Ref.resolve W C ft (mkExc .tlType (.noHandler ft) v ft) () with
        | div => rw [hr] at h; cases h
        | err e u => rw [hr] at h; cases h
        | ok hd' u =>
          rw [hr] at h
          dsimp only at h
          rw [M.bind_apply] at h
          generalize hq : (M.rescue (rec hd' x ft) _ : R Val) () = q at h
          cases q with
          | div => cases h
          | err e u => cases h
          | ok y u =>
            rw [ih _ _ _ h n, aget_aset]
            by_cases hn : m = n
            · subst hn; simp only [if_true, Option.isSome_some, List.map_cons, List.mem_cons, true_or, and_true, true_iff]; exact Or.inr hm
            · simp only [if_neg hn, List.map_cons, List.mem_cons, Ne.symm hn, false_or]
    · rw [if_neg hm] at h
      rw [ih _ _ _ h n]
      constructor
      · rintro (h1 | ⟨h1, h2⟩)
        · exact Or.inl h1
        · exact Or.inr ⟨h1, by simp [h2]⟩
      · rintro (h1 | ⟨h1, h2⟩)
        · exact Or.inl h1
        · rcases List.mem_cons.1 h2 with rfl | h2
          · exact absurd h1 hm
          · exact Or.inr ⟨h1, h2⟩

/-- Loading into a class and into its new version. -/
theorem Up.objMangled {c d : Nat} (hv : V c d) (hu : NewerClass W C V Γ Γ' c d) {info info' : ObjInfo} (hi : InfoFor W C c info) (hi' : InfoFor W C d info')
    (hnec : ∀ n, n ∈ info.necessary ↔ ∃ f ∈ (W.cls c).fields, f.name = n ∧ necField W (W.cls c).kind f = true)
    (hnec' : ∀ n, n ∈ info'.necessary ↔ ∃ f ∈ (W.cls d).fields, f.name = n ∧ necField W (W.cls d).kind f = true)
    (hquiet : W.NeverStops → ∀ n ft h x, aget info.hints n = some ft → TL.pick W C ft = .ok h → Quiet (rec h x ft))
    (hold : OldData W C V Γ v0 t0) {x : Val} (hre : Reaches W C Γ v0 t0 x (.obj c)) :
    Up (Grown W V) (Ref.objMangled W C rec info x c) (fun m => Ref.objMangled W C (rec' m) info' x d) := by
  unfold Ref.objMangled
  rcases ofL_mangle (C := C) info.transforms x (.obj c) with ⟨v1, hm1, he1⟩ | ⟨_, e, hne, he1⟩
  rotate_left
  · rw [he1]; exact Up.throw (e := e) _ hne
  rw [he1]
  by_cases hdd : ∃ kvs, DictData C x kvs
  rotate_left
  · have : objItems C v1 = none := by
      rcases mangle_names_ok hm1 with ⟨_, rfl⟩ | ⟨kvs, _, rfl, _⟩
      · exact (objItems_none _).2 (fun kvs h => hdd ⟨kvs, h⟩)
      · exact absurd ⟨kvs, Or.inl rfl⟩ hdd
    show Up _ (Ref.objloader W C rec info v1 c) _
    unfold Ref.objloader
    rw [this]
    exact Up.throw (e := mkExc .tlAttr (.py .attr) v1 (.obj c)) _ (by simp [mkExc])
  obtain ⟨kvs, hdd⟩ := hdd
  obtain ⟨rfl, hnd, hadd⟩ := hold x c d hre hv kvs hdd
  obtain ⟨ks, rfl, hmg⟩ := mangled_ok hm1
  have hw' : WFNames C (W.cls d).kind (W.cls d).fields := hu.newNames
  by_cases hkn : C.failonextra = true → ∀ p ∈ kvs, KnownKey W C c p.1
  rotate_left
  · -- an unknown key
    have : C.failonextra = true ∧ ∃ p ∈ kvs, ¬ KnownKey W C c p.1 := by
      apply Classical.byContradiction
      intro hno
      exact hkn (fun hf p hp => Classical.byContradiction (fun hk => hno ⟨hf, p, hp, hk⟩))
    obtain ⟨hfoe, p, hp, hk⟩ := this
    obtain ⟨q, hq1, hq2⟩ := hmg.extra hu.oldNames hi hfoe hk (x := p.2) hp
    show Up _ (Ref.objloader W C rec info (.dict ks) c) _
    simp only [Ref.objloader, objItems]
    split
    · exact Up.throw _ (by simp [mkExc])
    · split
      · split
        · exact Up.throw _ (by simp [mkExc])
        · exact Up.throw _ (by simp [Exc.plain])
      · rename_i hno
        exfalso; apply hno
        have : extraKeys info ks ≠ [] := by
          intro h0
          have : q.1 ∈ extraKeys info ks := by
            unfold extraKeys
            exact List.mem_filter.2 ⟨List.mem_map.2 ⟨q, hq1, rfl⟩, by simp [hq2]⟩
          rw [h0] at this; cases this
        simp [hfoe, this]
  have hadd' : ∀ f, AddedField W c d f → extName C (W.cls d).kind f ∉ strKeys kvs := by
    intro g hg hmem
    cases hfoe : C.failonextra with
    | false => exact hadd hfoe g hg hmem
    | true =>
      obtain ⟨y, hy⟩ := mem_strKeys.1 hmem
      obtain ⟨f, hf, he⟩ := hkn hfoe _ hy
      obtain ⟨g', hg', hn⟩ := hu.kept f hf
      have : g' = g := nodup_map_inj hu.newNames.exts hg' hg.1 (by rw [hn.key]; exact (Val.str.inj he).symm)
      subst this
      exact hg.2 f hf hn.name.symm
  have hkn' : C.failonextra = true → ∀ p ∈ kvs, KnownKey W C d p.1 := fun hf p hp => hu.known (hkn hf p hp)
  obtain ⟨v2, hm2⟩ := mangle_total hi' hw' hkn'
  obtain ⟨ks', rfl, hmg'⟩ := mangled_ok hm2
  have he2 : ofL (mangleOrRaise C info'.transforms (.dict kvs) (.obj d)) = Pure.pure (.dict ks') := by
    rcases ofL_mangle (C := C) info'.transforms (.dict kvs) (.obj d) with ⟨v3, h3, h4⟩ | ⟨⟨_, h3⟩, _⟩
    · rw [hm2] at h3; cases h3; exact h4
    · rw [hm2] at h3; cases h3
  rw [he2]
  show Up _ (Ref.objloader W C rec info (.dict ks) c) (fun m => Ref.objloader W C (rec' m) info' (.dict ks') d)
  simp only [Ref.objloader, objItems]
  have hget : ∀ f ∈ (W.cls c).fields, dhas ks (.str f.name) = true ↔ f.name ∈ (given C (W.cls c).kind (W.cls c).fields kvs).map (·.1) := by
    intro f hf
    rw [← hmg.named hi hu.oldNames hnd, dhas_str]
    exact mem_named (by rw [hi.fields]; exact List.mem_map.2 ⟨f, hf, rfl⟩)
  have hmove : ∀ f ∈ (W.cls c).fields, ∀ g ∈ (W.cls d).fields, NewerField W C V Γ Γ' (W.cls c).kind (W.cls d).kind f g →
      dhas ks (.str f.name) = true → dhas ks' (.str g.name) = true := by
    intro f hf g hg hn' h1
    have e1 := hmg.dget hi hu.oldNames hnd hf
    have e2 := hmg'.dget hi' hw' hnd hg
    rw [hn'.key] at e2
    rw [dhas_str] at h1 ⊢
    apply Classical.byContradiction
    intro hno
    rw [← dget_none_str, e2, ← e1, dget_none_str] at hno
    exact hno h1
  have hold' : ∀ g ∈ (W.cls d).fields, necField W (W.cls d).kind g = true → ∃ f ∈ (W.cls c).fields,
      NewerField W C V Γ Γ' (W.cls c).kind (W.cls d).kind f g ∧ Required (W.cls c).kind f := by
    intro g hg hng
    by_cases hadded : AddedField W c d g
    · exact absurd (necField_required hng) (hu.added g hadded)
    · have : ∃ f ∈ (W.cls c).fields, f.name = g.name := by
        apply Classical.byContradiction
        intro hno
        exact hadded ⟨hg, fun f hf he => hno ⟨f, hf, he⟩⟩
      obtain ⟨f, hf, hfn⟩ := this
      obtain ⟨g', hg', hn'⟩ := hu.kept f hf
      have : g' = g := nodup_map_inj hu.newNames.names hg' hg (by rw [hn'.name, hfn])
      subst this
      exact ⟨f, hf, hn', hn'.required (necField_required hng)⟩
  have hpres : info.necessary.all (fun n => dhas ks (.str n)) = true → info'.necessary.all (fun n => dhas ks' (.str n)) = true ∨
      (W.NeverStops ∧ (W.cls c).kind = .attrs ∧ ∃ f ∈ (W.cls c).fields, Required .attrs f ∧ dhas ks (.str f.name) = false) := by
    intro ha
    rw [List.all_eq_true] at ha
    by_cases hs : (W.cls c).kind = .attrs → W.attrsSentinel = true
    · left
      rw [List.all_eq_true]
      intro n hn
      obtain ⟨g, hg, rfl, hng⟩ := (hnec' n).1 hn
      obtain ⟨f, hf, hn', hreq⟩ := hold' g hg hng
      exact hmove f hf g hg hn' (ha f.name ((hnec _).2 ⟨f, hf, rfl, required_nec hreq hs⟩))
    · have hk : (W.cls c).kind = .attrs := Classical.byContradiction (fun h => hs (fun h' => absurd h' h))
      have hsent : W.attrsSentinel = false := by
        cases h : W.attrsSentinel with
        | false => rfl
        | true => exact absurd (fun _ => h) hs
      by_cases hkd : (W.cls d).kind = .attrs
      · left
        rw [List.all_eq_true]
        intro n hn
        obtain ⟨g, hg, rfl, hng⟩ := (hnec' n).1 hn
        rw [hkd] at hng
        simp [necField, hsent] at hng
      · have hW : W.NeverStops := by
          rcases hu.kind with h | h
          · exact absurd (by rw [h]; exact hk) hkd
          · rcases h.2 hk with h | h
            · rw [h] at hsent; cases hsent
            · exact h
        apply Classical.byContradiction
        intro hno
        rw [not_or] at hno
        apply hno.1
        rw [List.all_eq_true]
        intro n hn
        obtain ⟨g, hg, rfl, hng⟩ := (hnec' n).1 hn
        obtain ⟨f, hf, hn', hreq⟩ := hold' g hg hng
        refine hmove f hf g hg hn' ?_
        cases hp : dhas ks (.str f.name) with
        | true => rfl
        | false => exact absurd ⟨hW, hk, f, hf, by rw [hk] at hreq; exact hreq, hp⟩ hno.2
  by_cases ha : info.necessary.all (fun n => dhas ks (.str n)) = true
  rotate_left
  · simp only [Bool.not_eq_true] at ha
    simp only [ha, Bool.not_false, if_true]
    exact Up.throw _ (by simp [mkExc])
  rcases hpres ha with hpres | ⟨hW, hk, f, hf, hreq, hno⟩
  rotate_left
  · -- an argument of the constructor is missing
    refine Bad.up ⟨fun r u h => ?_, Quiet.ite (fun _ => .throw (by simp [mkExc])) (fun _ => .ite (fun _ => .ite (fun _ => .throw (by simp [mkExc])) (fun _ => .raised (by simp)))
      (fun _ => .bind (.objFields hd _ _ _ (hquiet hW) _ _) (fun ps => ?_)))⟩ _
    · simp only [ha, Bool.not_true, Bool.false_eq_true, if_false] at h
      split at h
      · split at h <;> cases h
      · rw [M.bind_apply] at h
        rw [objFields_named ks, hmg.named hi hu.oldNames hnd] at h
        cases ho : Ref.objFields W C rec info (.dict ks) (.obj c) ((given C (W.cls c).kind (W.cls c).fields kvs).map (fun p => (.str p.1, p.2))) [] () with
        | div => rw [ho] at h; cases h
        | err e u => rw [ho] at h; cases h
        | ok ps u' =>
          rw [ho] at h
          dsimp only at h
          have hn : aget ps f.name = none := by
            cases hp : aget ps f.name with
            | none => rfl
            | some y =>
              exfalso
              have := (objFields_dom _ _ _ _ ho f.name).1 (by rw [hp]; rfl)
              rcases this with h1 | h1
              · cases h1
              · rw [(hget f hf).2 h1.2] at hno; cases hno
          cases hc : construct W c ps with
          | error e =>
            rw [hc] at h
            dsimp only at h
            split at h
            · cases h
            · split at h <;> cases h
          | ok r' =>
            unfold construct at hc
            dsimp only at hc
            rw [hk] at hc
            dsimp only at hc
            split at hc
            · cases hff : fillFields ps (W.cls c).fields with
              | error e => rw [hff] at hc; cases hc
              | ok fs =>
                rcases fillFields_args _ _ hff f hf with h1 | h1 | h1
                · rw [hn] at h1; cases h1
                · rw [hreq.2] at h1; cases h1
                · rw [hreq.1] at h1; cases h1
            · cases hc
    · cases hc : construct W c ps with
      | ok r => exact .pure _
      | error e =>
        have := construct_old hu hc
        subst this
        exact .throw (e := mkExc0 .tlType (.py .type)) (by simp [mkExc0])
  simp only [ha, hpres, Bool.not_true, Bool.false_eq_true, if_false]
  have hex' : (C.failonextra && !(extraKeys info' ks').isEmpty) = false := by
    cases hfoe : C.failonextra with
    | false => rfl
    | true => rw [mangled_known hi' hw' hmg' (hkn' hfoe)]; rfl
  simp only [hex']
  split
  · split
    · exact Up.throw _ (by simp [mkExc])
    · exact Up.throw _ (by simp [Exc.plain])
  simp only [Bool.false_eq_true, if_false]
  refine Up.bindv (Q := fun ps qs => GrownArgs W V ps qs ∧ ∀ n x, aget ps n = some x → n ∈ (W.cls c).fields.map (·.name)) ?_ (fun ps qs u ho hps => ?_)
  · rw [objFields_named ks]
    simp only [objFields_named ks']
    rw [hmg.named hi hu.oldNames hnd, hmg'.named hi' hw' hnd, given_newer hu hadd']
    refine Up.objFields hd hrec hu hi hi' _ (fun n x hx => ?_) _ _ .nil (fun n x h => by cases h)
    obtain ⟨f, hf, rfl, hm⟩ := mem_given hu.oldNames hx
    exact ⟨f, hf, rfl, fun ft hft => .field hre hdd hf (ext_keyOf hf) hm hft⟩
  · cases hc : construct W c ps with
    | ok r =>
      obtain ⟨r', h1, h2⟩ := construct_newer hu hps.1 hps.2 hv (fun hk f hf hr => by
        rw [objFields_named ks, hmg.named hi hu.oldNames hnd] at ho
        refine (objFields_dom _ _ _ _ ho f.name).2 (Or.inr ⟨?_, (hget f hf).1 ?_⟩)
        · rw [hi.fields, List.contains_iff_mem]; exact List.mem_map.2 ⟨f, hf, rfl⟩
        · exact List.all_eq_true.1 ha f.name ((hnec _).2 ⟨f, hf, rfl, required_nec (by rw [hk]; exact hr) (fun h => by rw [hk] at h; cases h)⟩)) hc
      rw [h1]
      exact Up.pure h2
    | error e =>
      have := construct_old hu hc
      subst this
      exact Up.throw (e := mkExc0 .tlType (.py .type)) _ (by simp [mkExc0])
end

end TL
