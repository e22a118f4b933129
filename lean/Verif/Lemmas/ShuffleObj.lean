import Verif.Lemmas.ShuffleRun
/-!
# Loading the same data in another order: classes
-/

namespace TL

set_option linter.unusedSectionVars false

variable {W : World} {C : Config} {Γ : Env}

/-! ## Arguments of constructors -/

/-- The same arguments, up to the order (of the arguments and in the values). -/
def SameArgs (ps qs : List (String × Val)) : Prop := ∃ ms, ShufArgs ps ms ∧ ms.Perm qs ∧ (ps.map (·.1)).Nodup

theorem SameArgs.names {ps qs : List (String × Val)} (h : SameArgs ps qs) : (ps.map (·.1)).Perm (qs.map (·.1)) := by
  obtain ⟨ms, h1, h2, _⟩ := h
  rw [zip_names h1]
  exact h2.map _

theorem SameArgs.aget {ps qs : List (String × Val)} (h : SameArgs ps qs) (n : String) :
    (TL.aget ps n = none ∧ TL.aget qs n = none) ∨ ∃ a b, TL.aget ps n = some a ∧ TL.aget qs n = some b ∧ Shuf a b := by
  have hn := h.names
  obtain ⟨ms, h1, h2, h3⟩ := h
  have none_iff : ∀ {l : List (String × Val)}, TL.aget l n = none ↔ n ∉ l.map (·.1) := by
    intro l
    induction l with
    | nil => simp
    | cons p l ih =>
      obtain ⟨m, y⟩ := p
      simp only [TL.aget, List.map_cons, List.mem_cons, not_or]
      by_cases hm : m = n
      · subst hm; simp
      · simp only [if_neg hm, ih]
        exact ⟨fun h => ⟨fun h' => hm h'.symm, h⟩, fun h => h.2⟩
  have mem : ∀ {l : List (String × Val)} {a : Val}, TL.aget l n = some a → (n, a) ∈ l := by
    intro l a
    induction l with
    | nil => intro h; cases h
    | cons p l ih =>
      obtain ⟨m, y⟩ := p
      intro h
      simp only [TL.aget] at h
      split at h
      · rename_i hm; cases h; subst hm; simp
      · simp [ih h]
  cases ha : TL.aget ps n with
  | none =>
    left
    exact ⟨rfl, none_iff.2 (fun hm => none_iff.1 ha (hn.symm.subset hm))⟩
  | some a =>
    right
    obtain ⟨q, hq, h4, h5⟩ := h1.mem_left (mem ha)
    obtain ⟨m, b⟩ := q
    dsimp only at h4 h5
    subst h4
    exact ⟨a, b, rfl, aget_of_mem (hn.nodup h3) (h2.subset hq), h5⟩

theorem SameArgs.fillField {ps qs : List (String × Val)} (h : SameArgs ps qs) (f : Field) : Alike ShufArgs (TL.fillField ps f) (TL.fillField qs f) := by
  unfold TL.fillField
  rcases h.aget f.name with ⟨h1, h2⟩ | ⟨a, b, h1, h2, h3⟩
  · rw [h1, h2]
    cases f.default with
    | some d => exact Or.inl ⟨_, _, rfl, rfl, .cons ⟨rfl, .same⟩ .nil⟩
    | none =>
      cases f.init with
      | true => exact Or.inr ⟨_, _, rfl, rfl⟩
      | false => exact Or.inl ⟨_, _, rfl, rfl, .nil⟩
  · rw [h1, h2]
    exact Or.inl ⟨_, _, rfl, rfl, .cons ⟨rfl, h3⟩ .nil⟩

theorem SameArgs.fillFields {ps qs : List (String × Val)} (h : SameArgs ps qs) (fl : List Field) : Alike ShufArgs (TL.fillFields ps fl) (TL.fillFields qs fl) := by
  induction fl with
  | nil => exact Or.inl ⟨[], [], rfl, rfl, .nil⟩
  | cons f fl ih =>
    simp only [TL.fillFields]
    rcases h.fillField f with ⟨a, b, h1, h2, h3⟩ | ⟨e, e', h1, h2⟩
    · rw [h1, h2]
      rcases ih with ⟨as, bs, h4, h5, h6⟩ | ⟨e, e', h4, h5⟩
      · rw [h4, h5]; exact Or.inl ⟨_, _, rfl, rfl, h3.append h6⟩
      · rw [h4, h5]; exact Or.inr ⟨_, _, rfl, rfl⟩
    · rw [h1, h2]; exact Or.inr ⟨_, _, rfl, rfl⟩

/-- The constructors of the class do not look at the order. -/
def OrderlessInit (W : World) (c : Nat) : Prop := ∀ fs fs', ShufFields fs fs' → Alike ShufFields (W.initHook c fs) (W.initHook c fs')

theorem SameArgs.construct {ps qs : List (String × Val)} (h : SameArgs ps qs) {c : Nat} (hh : OrderlessInit W c) :
    Alike Shuf (TL.construct W c ps) (TL.construct W c qs) := by
  have hall : ps.all (fun p => isInitArg (W.cls c) p.1) = qs.all (fun p => isInitArg (W.cls c) p.1) := by
    have e : ∀ l : List (String × Val), l.all (fun p => isInitArg (W.cls c) p.1) = (l.map (·.1)).all (isInitArg (W.cls c)) := by
      intro l; rw [List.all_map]; rfl
    rw [e, e]; exact all_perm h.names
  have hinst : Alike Shuf
      (if ps.all (fun p => isInitArg (W.cls c) p.1) then match TL.fillFields ps (W.cls c).fields with
        | .error e => .error e
        | .ok fs => (W.initHook c fs).map (Val.inst c) else .error ExcClass.type)
      (if qs.all (fun p => isInitArg (W.cls c) p.1) then match TL.fillFields qs (W.cls c).fields with
        | .error e => .error e
        | .ok fs => (W.initHook c fs).map (Val.inst c) else .error ExcClass.type) := by
    rw [← hall]
    cases ps.all (fun p => isInitArg (W.cls c) p.1) with
    | false => exact Or.inr ⟨_, _, rfl, rfl⟩
    | true =>
      simp only [if_true]
      rcases h.fillFields (W.cls c).fields with ⟨a, b, h1, h2, h3⟩ | ⟨e, e', h1, h2⟩
      · rw [h1, h2]
        rcases hh a b (.of_args h3) with ⟨r, q, h4, h5, h6⟩ | ⟨e, e', h4, h5⟩
        · simp only [h4, h5]; exact Or.inl ⟨_, _, rfl, rfl, .of_inst h6.args⟩
        · simp only [h4, h5]; exact Or.inr ⟨_, _, rfl, rfl⟩
      · rw [h1, h2]; exact Or.inr ⟨_, _, rfl, rfl⟩
  unfold TL.construct
  dsimp only
  cases (W.cls c).kind with
  | typeddict =>
    obtain ⟨ms, h1, h2, _⟩ := h
    refine Or.inl ⟨_, _, rfl, rfl, .of_items (mid := ms.map (fun p => (.str p.1, p.2))) ?_ (h2.map _)⟩
    clear h2 hall hinst
    induction h1 with
    | nil => exact .nil
    | cons hpq _ ih => exact .cons ⟨congrArg Val.str hpq.1, hpq.2⟩ (ih (by rename_i hn; exact (List.nodup_cons.1 hn).2))
  | namedtuple =>
    dsimp only
    rcases h.fillFields (W.cls c).fields with ⟨a, b, h1, h2, h3⟩ | ⟨e, e', h1, h2⟩
    · rw [h1, h2]; exact Or.inl ⟨_, _, rfl, rfl, .of_nt h3⟩
    · rw [h1, h2]; exact Or.inr ⟨_, _, rfl, rfl⟩
  | dataclass => exact hinst
  | attrs => exact hinst

theorem foldl_aset_nodup {l : List (String × Val)} : ∀ {acc : List (String × Val)}, ((acc ++ l).map (·.1)).Nodup →
    l.foldl (fun a q => aset a q.1 q.2) acc = acc ++ l := by
  induction l with
  | nil => intro acc _; simp
  | cons p l ih =>
    obtain ⟨n, y⟩ := p
    intro acc hn
    have hnew : aset acc n y = acc ++ [(n, y)] := by
      refine aset_new (fun hm => ?_)
      rw [List.map_append, List.nodup_append] at hn
      exact hn.2.2 n hm n (by simp) rfl
    rw [List.foldl_cons, hnew, ih (by simpa using hn)]
    simp

/-! ## The data of the fields -/

/-- Load one field. -/
def fieldItem (W : World) (C : Config) (rec : Ref.Rec) (info : ObjInfo) (v : Val) (t : Ty) (p : String × Val) : R (String × Val) :=
  match aget info.hints p.1 with
  | none => M.throw (.plain (.other 1))
  | some ft => Ref.resolve W C ft (mkExc .tlType (.noHandler ft) v ft) >>= fun h =>
      (M.rescue (rec h p.2 ft) (fun e => if e.isTL then M.throw (e.push ⟨v, t, some (.field p.1)⟩) else M.throw e)) >>= fun y => Pure.pure (p.1, y)

theorem objFields_each {rec : Ref.Rec} {info : ObjInfo} {v : Val} {t : Ty} (l : List (String × Val)) (hl : ∀ p ∈ l, info.fields.contains p.1 = true) : ∀ acc,
    Ref.objFields W C rec info v t (l.map (fun p => (.str p.1, p.2))) acc = each (fieldItem W C rec info v t) (fun a q => aset a q.1 q.2) l acc := by
  induction l with
  | nil => intro acc; rfl
  | cons p l ih =>
    obtain ⟨n, y⟩ := p
    intro acc
    have ih := ih (fun p hp => hl p (by simp [hp]))
    have hc : info.fields.contains n = true := hl (n, y) (by simp)
    funext s
    simp only [List.map_cons, Ref.objFields, hc, if_true, each, fieldItem]
    cases aget info.hints n with
    | none => rfl
    | some ft =>
      dsimp only
      simp only [M.bind_apply]
      cases Ref.resolve W C ft (mkExc .tlType (.noHandler ft) v ft) s with
      | ok h s1 =>
        dsimp only
        cases M.rescue (rec h y ft) (fun e => if e.isTL then M.throw (e.push ⟨v, t, some (.field n)⟩) else M.throw e) s1 with
        | ok z s2 => simp only [M.pure_apply]; rw [ih]
        | err => rfl
        | div => rfl
      | err => rfl
      | div => rfl

theorem fieldItem_name {rec : Ref.Rec} {info : ObjInfo} {v : Val} {t : Ty} {p r : String × Val} {s s' : Unit} (h : fieldItem W C rec info v t p s = .ok r s') : r.1 = p.1 := by
  unfold fieldItem at h
  cases hh : aget info.hints p.1 with
  | none => rw [hh] at h; cases h
  | some ft =>
    rw [hh] at h
    simp only [M.bind_apply] at h
    cases h1 : Ref.resolve W C ft (mkExc .tlType (.noHandler ft) v ft) s with
    | ok hd s1 =>
      rw [h1] at h
      dsimp only at h
      cases h2 : M.rescue (rec hd p.2 ft) (fun e => if e.isTL then M.throw (e.push ⟨v, t, some (.field p.1)⟩) else M.throw e) s1 with
      | ok z s2 => rw [h2] at h; cases h; rfl
      | err => rw [h2] at h; cases h
      | div => rw [h2] at h; cases h
    | err => rw [h1] at h; cases h
    | div => rw [h1] at h; cases h

theorem fieldItems_names {info : ObjInfo} {v : Val} {t : Ty} {l : List (String × Val)} {rs : List (String × Val)}
    (h : Zip2 (fun p r => Ok (fun n => fieldItem W C (Ref.run W C Γ n) info v t p) r) l rs) : rs.map (·.1) = l.map (·.1) := by
  induction h with
  | nil => rfl
  | cons hpr _ ih =>
    obtain ⟨N, hN⟩ := hpr
    rw [List.map_cons, List.map_cons, ih, fieldItem_name (hN N (Nat.le_refl _))]

theorem given_shuf {k : ObjKind} {fs : List Field} {kvs mid : List (Val × Val)} (hz : ShufItems kvs mid) : ShufArgs (given C k fs kvs) (given C k fs mid) := by
  unfold given
  induction hz with
  | nil => exact .nil
  | @cons p q _ _ h _ ih =>
    simp only [List.filterMap_cons, ← h.1]
    cases fieldOf C k fs p.1 with
    | none => exact ih
    | some n => exact .cons ⟨rfl, h.2⟩ ih

theorem given_perm {k : ObjKind} {fs : List Field} {l l' : List (Val × Val)} (h : l.Perm l') : (given C k fs l).Perm (given C k fs l') := h.filterMap _

theorem given_names {k : ObjKind} {fs : List Field} (hw : WFNames C k fs) {kvs : List (Val × Val)} (hn : (strKeys kvs).Nodup) : ((given C k fs kvs).map (·.1)).Nodup := by
  induction kvs with
  | nil => exact List.nodup_nil
  | cons p kvs ih =>
    obtain ⟨a, y⟩ := p
    have hn' : (strKeys kvs).Nodup := by
      unfold strKeys at hn ⊢
      rw [List.filterMap_cons] at hn
      cases h' : strKey (a, y).1 with
      | none => rw [h'] at hn; exact hn
      | some _ => rw [h'] at hn; exact (List.nodup_cons.1 hn).2
    have ih := ih hn'
    cases hf : fieldOf C k fs a with
    | none =>
      have : given C k fs ((a, y) :: kvs) = given C k fs kvs := by unfold given; rw [List.filterMap_cons]; simp only [hf]; rfl
      rw [this]; exact ih
    | some n =>
      have : given C k fs ((a, y) :: kvs) = (n, y) :: given C k fs kvs := by unfold given; rw [List.filterMap_cons]; simp only [hf]; rfl
      rw [this, List.map_cons, List.nodup_cons]
      refine ⟨fun hm => ?_, ih⟩
      obtain ⟨⟨m, z⟩, hq, he⟩ := List.mem_map.1 hm
      dsimp only at he; subst he
      obtain ⟨g, hg, hgn, hmem⟩ := mem_given hw hq
      obtain ⟨f, hfm, rfl, hfn⟩ := (fieldOf_iff hw).1 hf
      have : f = g := nodup_map_inj hw.names hfm hg (by rw [hfn, hgn])
      subst this
      exact (List.nodup_cons.1 (show (extName C k f :: strKeys kvs).Nodup from hn)).1 (mem_strKeys.2 ⟨z, hmem⟩)

/-! ## Classes -/

/-- Data that is no dictionary is refused. -/
theorem objMangled_notDict {x : Val} (hdd : ¬ ∃ kvs, DictData C x kvs) (info : ObjInfo) (c : Nat) : ∃ e, Er (fun n => Ref.objMangled W C (Ref.run W C Γ n) info x c) e := by
  unfold Ref.objMangled
  rcases ofL_mangle (C := C) info.transforms x (.obj c) with ⟨v1, hm1, he1⟩ | ⟨_, e, hne, he1⟩
  · have : objItems C v1 = none := by
      rcases mangle_names_ok hm1 with ⟨_, rfl⟩ | ⟨kvs, _, rfl, _⟩
      · exact (objItems_none _).2 (fun kvs h => hdd ⟨kvs, h⟩)
      · exact absurd ⟨kvs, Or.inl rfl⟩ hdd
    rw [he1]
    refine ⟨mkExc .tlAttr (.py .attr) v1 (.obj c), 0, fun n _ => ?_⟩
    simp only [M.bind_apply, M.pure_apply, Ref.objloader, this]
    rfl
  · rw [he1]
    exact ⟨e, 0, fun n _ => rfl⟩

/-- Unknown keys are refused with failonextra. -/
theorem objMangled_unknown {c : Nat} {info : ObjInfo} (hi : InfoFor W C c info) (hw : WFNames C (W.cls c).kind (W.cls c).fields) {kvs : List (Val × Val)}
    (hfoe : C.failonextra = true) {p : Val × Val} (hp : p ∈ kvs) (hk : ¬ KnownKey W C c p.1) :
    ∃ e, Er (fun n => Ref.objMangled W C (Ref.run W C Γ n) info (.dict kvs) c) e := by
  unfold Ref.objMangled
  rcases ofL_mangle (C := C) info.transforms (.dict kvs) (.obj c) with ⟨v1, hm1, he1⟩ | ⟨_, e, hne, he1⟩
  · obtain ⟨ks, rfl, hmg⟩ := mangled_ok hm1
    obtain ⟨q, hq1, hq2⟩ := hmg.extra hw hi hfoe hk (x := p.2) hp
    have hne : (extraKeys info ks).isEmpty = false := by
      have : q.1 ∈ extraKeys info ks := by
        unfold extraKeys
        exact List.mem_filter.2 ⟨List.mem_map.2 ⟨q, hq1, rfl⟩, by simp [hq2]⟩
      cases h : extraKeys info ks with
      | nil => rw [h] at this; cases this
      | cons => rfl
    rw [he1]
    by_cases ha : info.necessary.all (fun n => dhas ks (.str n)) = true
    · by_cases hb : (extraKeys info ks).all (fun k => typeOf k == .prim .str) = true
      · refine ⟨mkExc .tlValue (.extra (extraKeys info ks)) (.dict ks) (.obj c), 0, fun n _ => ?_⟩
        simp only [M.bind_apply, M.pure_apply, Ref.objloader, objItems, ha, hfoe, hne, hb]
        rfl
      · refine ⟨.plain .type, 0, fun n _ => ?_⟩
        simp only [M.bind_apply, M.pure_apply, Ref.objloader, objItems, ha, hfoe, hne, hb]
        rfl
    · refine ⟨mkExc .tlValue (.missing (info.necessary.filter (fun n => !dhas ks (.str n)))) (.dict ks) (.obj c), 0, fun n _ => ?_⟩
      simp only [M.bind_apply, M.pure_apply, Ref.objloader, objItems, ha]
      rfl
  · rw [he1]
    exact ⟨e, 0, fun n _ => rfl⟩

/-- The same data in another order into a class. -/
theorem Agree.objDict {c : Nat} {info : ObjInfo} (hi : InfoFor W C c info) (hw : WFNames C (W.cls c).kind (W.cls c).fields)
    (hnec : ∀ n, n ∈ info.necessary ↔ ∃ f ∈ (W.cls c).fields, f.name = n ∧ necField W (W.cls c).kind f = true) (hinit : OrderlessInit W c)
    {kvs mid kvs' : List (Val × Val)} (hz : ShufItems kvs mid) (hp : mid.Perm kvs') (hnd : (strKeys kvs).Nodup)
    (hf : ∀ f ∈ (W.cls c).fields, ∀ ft, FieldTy (W.cls c).kind f ft → ∀ a b, (.str (extName C (W.cls c).kind f), a) ∈ kvs → (.str (extName C (W.cls c).kind f), b) ∈ kvs' →
      Shuf a b → ∀ h, pick W C ft = .ok h → Agree Shuf (fun n => Ref.run W C Γ n h a ft) (fun n => Ref.run W C Γ n h b ft)) :
    Agree Shuf (fun n => Ref.objMangled W C (Ref.run W C Γ n) info (.dict kvs) c) (fun n => Ref.objMangled W C (Ref.run W C Γ n) info (.dict kvs') c) := by
  have hkeys : (strKeys kvs).Perm (strKeys kvs') := by rw [hz.strKeys]; exact strKeys_perm hp
  have hnd' := hkeys.nodup hnd
  by_cases hkn : C.failonextra = true → ∀ p ∈ kvs, KnownKey W C c p.1
  rotate_left
  · have : C.failonextra = true ∧ ∃ p ∈ kvs, ¬ KnownKey W C c p.1 := by
      apply Classical.byContradiction
      intro hno
      exact hkn (fun hf p hp => Classical.byContradiction (fun hk => hno ⟨hf, p, hp, hk⟩))
    obtain ⟨hfoe, p, hpm, hk⟩ := this
    obtain ⟨q, hq, hpq⟩ := hz.mem_left hpm
    exact Or.inr ⟨objMangled_unknown hi hw hfoe hpm hk, objMangled_unknown hi hw hfoe (hp.subset hq) (by rw [← hpq.1]; exact hk)⟩
  have hkn' : C.failonextra = true → ∀ p ∈ kvs', KnownKey W C c p.1 := by
    intro hfoe q hq
    obtain ⟨p, hpm, hpq⟩ := hz.mem_right (hp.symm.subset hq)
    rw [← hpq.1]
    exact hkn hfoe p hpm
  obtain ⟨_, hm1⟩ := mangle_total hi hw hkn
  obtain ⟨ks, rfl, hmg⟩ := mangled_ok hm1
  obtain ⟨_, hm2⟩ := mangle_total hi hw hkn'
  obtain ⟨ks', rfl, hmg'⟩ := mangled_ok hm2
  have he : ∀ {l l' : List (Val × Val)}, mangle_names info.transforms (.dict l) C.failonextra = .ok (.dict l') →
      ofL (mangleOrRaise C info.transforms (.dict l) (.obj c)) = Pure.pure (.dict l') := by
    intro l l' h
    rcases ofL_mangle (C := C) info.transforms (.dict l) (.obj c) with ⟨v3, h3, h4⟩ | ⟨⟨_, h3⟩, _⟩
    · rw [h] at h3; cases h3; exact h4
    · rw [h] at h3; cases h3
  unfold Ref.objMangled
  rw [he hm1, he hm2]
  show Agree Shuf (fun n => Ref.objloader W C (Ref.run W C Γ n) info (.dict ks) c) (fun n => Ref.objloader W C (Ref.run W C Γ n) info (.dict ks') c)
  simp only [Ref.objloader, objItems]
  have hnecs : info.necessary.all (fun n => dhas ks (.str n)) = info.necessary.all (fun n => dhas ks' (.str n)) := by
    rw [Bool.eq_iff_iff, List.all_eq_true, List.all_eq_true]
    have key : ∀ n ∈ info.necessary, (dhas ks (.str n) = true ↔ dhas ks' (.str n) = true) := by
      intro n hn
      obtain ⟨f, hfm, rfl, _⟩ := (hnec n).1 hn
      have h1 := hmg.dget hi hw hnd hfm
      have h2 := hmg'.dget hi hw hnd' hfm
      have : ∀ {l : List (Val × Val)} {m : String}, dhas l (.str m) = true ↔ dget l (.str m) ≠ none := by
        intro l m
        rw [dhas_str, Ne, dget_none_str, Classical.not_not]
      rw [this, this, h1, h2]
      rcases dget_shuf hz hp hnd (extName C (W.cls c).kind f) with ⟨e1, e2⟩ | ⟨a, b, e1, e2, _⟩ <;> rw [e1, e2] <;> simp
    exact ⟨fun h n hn => (key n hn).1 (h n hn), fun h n hn => (key n hn).2 (h n hn)⟩
  rw [← hnecs]
  refine Agree.ite (fun _ => Agree.throw) (fun _ => ?_)
  have hex : ∀ {l l' : List (Val × Val)}, (C.failonextra = true → ∀ p ∈ l, KnownKey W C c p.1) → Mangled C info.transforms (.dict l) l l' →
      (C.failonextra && !(extraKeys info l').isEmpty) = false := by
    intro l l' h1 h2
    cases hfoe : C.failonextra with
    | false => rfl
    | true => rw [mangled_known hi hw h2 (h1 hfoe)]; rfl
  simp only [hex hkn hmg, hex hkn' hmg', Bool.false_eq_true, if_false]
  have hgn : ∀ {l : List (Val × Val)}, ∀ p ∈ given C (W.cls c).kind (W.cls c).fields l, info.fields.contains p.1 = true := by
    intro l p hpm
    obtain ⟨f, hfm, hfn, _⟩ := mem_given hw hpm
    rw [hi.fields, List.contains_iff_mem]
    exact List.mem_map.2 ⟨f, hfm, hfn⟩
  have hloop : Agree SameArgs (fun n => Ref.objFields W C (Ref.run W C Γ n) info (.dict ks) (.obj c) ks [])
      (fun n => Ref.objFields W C (Ref.run W C Γ n) info (.dict ks') (.obj c) ks' []) := by
    have e1 : ∀ n, Ref.objFields W C (Ref.run W C Γ n) info (.dict ks) (.obj c) ks [] = each (fieldItem W C (Ref.run W C Γ n) info (.dict ks) (.obj c))
        (fun a q => aset a q.1 q.2) (given C (W.cls c).kind (W.cls c).fields kvs) [] := by
      intro n
      rw [objFields_named ks, hmg.named hi hw hnd, objFields_each _ hgn]
    have e2 : ∀ n, Ref.objFields W C (Ref.run W C Γ n) info (.dict ks') (.obj c) ks' [] = each (fieldItem W C (Ref.run W C Γ n) info (.dict ks') (.obj c))
        (fun a q => aset a q.1 q.2) (given C (W.cls c).kind (W.cls c).fields kvs') [] := by
      intro n
      rw [objFields_named ks', hmg'.named hi hw hnd', objFields_each _ hgn]
    simp only [e1, e2]
    have hitems : Zip2 (fun p q => Agree (fun a b : String × Val => a.1 = b.1 ∧ Shuf a.2 b.2) (fun n => fieldItem W C (Ref.run W C Γ n) info (.dict ks) (.obj c) p)
        (fun n => fieldItem W C (Ref.run W C Γ n) info (.dict ks') (.obj c) q)) (given C (W.cls c).kind (W.cls c).fields kvs) (given C (W.cls c).kind (W.cls c).fields mid) := by
      refine (given_shuf hz).both (fun p q hpm hqm hpq => ?_)
      obtain ⟨n, a⟩ := p
      obtain ⟨m, b⟩ := q
      obtain ⟨h1, h2⟩ := hpq
      dsimp only at h1 h2; subst h1
      obtain ⟨f, hfm, rfl, ha⟩ := mem_given hw hpm
      obtain ⟨g, hgm, hgn, hb⟩ := mem_given hw hqm
      have := nodup_map_inj hw.names hgm hfm hgn; subst this
      unfold fieldItem
      obtain ⟨ft, hft⟩ := Option.isSome_iff_exists.1 (hi.hints_some _ hfm)
      have hty : FieldTy (W.cls c).kind g ft := by
        obtain ⟨f', hf', h3, h4⟩ := hi.hints _ _ hft
        have := nodup_map_inj hw.names hf' hfm h3
        subst this; exact h4
      dsimp only
      rw [hft]
      refine Agree.resolve (fun h hpk => ?_)
      refine Agree.bind (Q := Shuf) (Agree.rescue (hf g hfm ft hty a b ha (hp.subset hb) h2 h hpk) (fun e e' _ _ => ?_)) (fun y z _ _ hyz => Agree.pure ⟨rfl, hyz⟩)
      cases e.isTL <;> cases e'.isTL <;> exact Agree.throw
    rcases each_agree (upd := fun (a : List (String × Val)) (q : String × Val) => aset a q.1 q.2) (upd' := fun (a : List (String × Val)) (q : String × Val) => aset a q.1 q.2)
      hitems (given_perm hp) [] [] with ⟨rs, ms, rs', h1, h2, h3, h4, h5, _⟩ | h
    rotate_left
    · exact Or.inr h
    have hnames : rs.map (·.1) = (given C (W.cls c).kind (W.cls c).fields kvs).map (·.1) := fieldItems_names h5
    have hn1 : (rs.map (·.1)).Nodup := by rw [hnames]; exact given_names hw hnd
    have hsa : SameArgs rs rs' := ⟨ms, h3, h4, hn1⟩
    rw [foldl_aset_nodup (acc := []) (by simpa using hn1), List.nil_append] at h1
    rw [foldl_aset_nodup (acc := []) (by simpa using hsa.names.nodup hn1), List.nil_append] at h2
    exact Or.inl ⟨rs, rs', h1, h2, hsa⟩
  refine Agree.bind hloop (fun ps qs _ _ hpq => ?_)
  rcases hpq.construct hinit with ⟨r, q, h1, h2, h3⟩ | ⟨e, e', h1, h2⟩
  · rw [h1, h2]; exact Agree.pure h3
  · rw [h1, h2]
    dsimp only
    cases e.isType <;> cases e.isValue <;> cases e'.isType <;> cases e'.isValue <;> exact Agree.throw

end TL
