import Verif.Props.Keys
import Verif.Lemmas.Rew
/-!
# Loading into classes, completeness: C21, C30

When nothing is wrong with the data, the load is not refused.  (That it ends is C45.)
-/

namespace TL

variable {W : World} {C : Config}

/-- Nothing is wrong with the data for class `c`: every required key is there, no data under the key of a field is refused by the
type of the field, fields that are not arguments of the constructor are absent, and under `failonextra` all keys are known. -/
structure GoodData (W : World) (C : Config) (s : LState) (c : Nat) (kvs : List (Val × Val)) : Prop where
  required : ∀ f ∈ (W.cls c).fields, Required (W.cls c).kind f ∨ ((W.cls c).kind = .typeddict ∧ f.required = true) →
    extName C (W.cls c).kind f ∈ strKeys kvs
  values : ∀ f ∈ (W.cls c).fields, ∀ t, FieldTy (W.cls c).kind f t → ∀ x, (.str (extName C (W.cls c).kind f), x) ∈ kvs → ¬ Fails W C s x t
  args : ∀ f ∈ (W.cls c).fields, (W.cls c).kind = .dataclass ∨ (W.cls c).kind = .attrs →
    isInitArg (W.cls c) f.name = false → extName C (W.cls c).kind f ∉ strKeys kvs
  known : C.failonextra = true → ∀ p ∈ kvs, KnownKey W C c p.1

theorem mem_dset_key {l : List (Val × Val)} {k x : Val} {p : Val × Val} (h : p ∈ dset l k x) : p.1 = k ∨ ∃ q ∈ l, q.1 = p.1 := by
  induction l with
  | nil => simp [dset] at h; left; rw [h]
  | cons q l ih =>
    obtain ⟨a, b⟩ := q
    simp only [dset] at h
    split at h
    · rcases List.mem_cons.1 h with rfl | h
      · right; exact ⟨(a, b), by simp, rfl⟩
      · right; exact ⟨p, by simp [h], rfl⟩
    · rcases List.mem_cons.1 h with rfl | h
      · right; exact ⟨_, by simp, rfl⟩
      · rcases ih h with h | ⟨q, h1, h2⟩
        · left; exact h
        · right; exact ⟨q, by simp [h1], h2⟩

/-- Renaming known keys gives field names. -/
theorem mangleLoop_known {c : Nat} (hw : WFNames C (W.cls c).kind (W.cls c).fields) (foe : Bool) (kvs : List (Val × Val))
    (hk : ∀ p ∈ kvs, KnownKey W C c p.1) : ∀ (acc r : List (Val × Val)),
      (∀ p ∈ acc, isFieldKey ((W.cls c).fields.map (·.name)) p.1 = true) →
      mangleLoop (transformsOf (renamed C (W.cls c).kind) (W.cls c).fields []) foe kvs acc = .ok r →
      ∀ p ∈ r, isFieldKey ((W.cls c).fields.map (·.name)) p.1 = true := by
  induction kvs with
  | nil => intro acc r h h'; cases h'; exact h
  | cons q kvs ih =>
    obtain ⟨k, x⟩ := q
    intro acc r hacc h
    obtain ⟨f, hf, hkf⟩ := hk (k, x) (by simp)
    dsimp only at hkf
    subst hkf
    rw [mangleLoop_str, keyFate_ext hw hf] at h
    have hname : isFieldKey ((W.cls c).fields.map (·.name)) (.str f.name) = true :=
      isFieldKey_iff.2 ⟨f.name, List.mem_map.2 ⟨f, hf, rfl⟩, rfl⟩
    have hds : ∀ p ∈ dset acc (.str f.name) x, isFieldKey ((W.cls c).fields.map (·.name)) p.1 = true := by
      intro p hp
      rcases mem_dset_key hp with h | ⟨q, h1, h2⟩
      · rw [h]; exact hname
      · rw [← h2]; exact hacc q h1
    cases hr : renamed C (W.cls c).kind f with
    | some m => rw [hr] at h; exact ih (fun p hp => hk p (by simp [hp])) _ r hds h
    | none =>
      rw [hr] at h
      have he : extName C (W.cls c).kind f = f.name := by simp [extName, hr]
      rw [he] at h
      exact ih (fun p hp => hk p (by simp [hp])) _ r hds h

/-- **C21** A load into a class is refused only for a reason in the data: when nothing is wrong with it and the constructor itself does
not raise, the load does not raise. -/
theorem C21_complete {c : Nat} (hd : C.Usual W (.obj c)) {s : LState} (hs : Reachable W C s)
    (hw : WFNames C (W.cls c).kind (W.cls c).fields)
    (ha : ∀ f ∈ (W.cls c).fields, (W.cls c).kind = .attrs → ∃ t, FieldTy .attrs f t)
    (hinit : ∀ fs, ∃ fs', W.initHook c fs = .ok fs')
    {kvs : List (Val × Val)} (hn : (strKeys kvs).Nodup) (hg : GoodData W C s c kvs) :
    ∀ e s', ¬ Raises W C s (.dict kvs) (.obj c) e s' := by
  intro e s' h
  obtain ⟨e', hf, _⟩ := raises_obj hd hs.coh h
  rcases hf with ⟨h1, _, h3⟩ | ⟨info, hi, hf⟩
  · obtain ⟨h, hh⟩ := attrHints_total _ (fun f hf => ha f hf h1)
    rw [hh] at h3; cases h3
  rcases hf with ⟨_, hf⟩ | ⟨hf, _⟩ | ⟨kvs1, kvs', hm, hf⟩
  · rcases hf with ⟨hf, _⟩ | ⟨hfoe, _, kvs1, n, x, h1, h2, h3⟩
    · exact hf kvs rfl
    · cases h1
      obtain ⟨f, hf, hkf⟩ := hg.known hfoe _ h2
      dsimp only at hkf
      cases hkf
      rw [hi.transforms, keyFate_ext hw hf] at h3
      split at h3 <;> cases h3
  · exact hf kvs (Or.inl rfl)
  have := hm.1.unique (Or.inl rfl); subst this
  have hnec : ∀ f ∈ info.necessary, f ∈ strKeys kvs' := by
    intro n hnn
    obtain ⟨f, hf, rfl, hr⟩ := hi.nec_sub n hnn
    have h1 := hg.required f hf hr
    have hdg := hm.dget hi hw hn hf
    apply Classical.byContradiction
    intro h2
    rw [← dget_none_str, hdg, dget_none_str] at h2
    exact h2 h1
  rcases hf with ⟨⟨f, h1, h2⟩, _⟩ | ⟨hfoe, p, h1, h2, _⟩ | ⟨_, v', m, x, h1, h2, h3⟩ | ⟨_, params, x, hp, hcon, _⟩
  · exact h2 (hnec f h1)
  · have : isFieldKey info.fields p.1 = true := by
      rw [hi.fields]
      rcases hm.2 with ⟨h3, rfl⟩ | ⟨_, _, h3⟩
      · obtain ⟨f, hf, hkf⟩ := hg.known hfoe p h1
        rw [hkf]
        have hr : renamed C (W.cls c).kind f = none := by
          cases hr : renamed C (W.cls c).kind f with
          | none => rfl
          | some n =>
            have := (transforms_aget hw n f.name).2 ⟨f, hf, hr, rfl⟩
            rw [← hi.transforms, h3] at this; cases this
        have he : extName C (W.cls c).kind f = f.name := by simp [extName, hr]
        rw [he]
        exact isFieldKey_iff.2 ⟨f.name, List.mem_map.2 ⟨f, hf, rfl⟩, rfl⟩
      · rw [hi.transforms] at h3
        exact mangleLoop_known hw _ _ (hg.known hfoe) [] kvs' (fun _ h => (by cases h)) h3 p h1
    rw [h2] at this; cases this
  · rw [hi.fields] at h2
    obtain ⟨f, hf, rfl⟩ := List.mem_map.1 h2
    have hx : (.str (extName C (W.cls c).kind f), x) ∈ kvs1 := by
      apply dget_mem_str
      rw [← hm.dget hi hw hn hf]
      exact dget_of_mem_str (hm.nodup hn) h1
    rcases h3 with ⟨h3, _⟩ | ⟨ft, h3, h4⟩
    · have := hi.hints_some f hf; rw [h3] at this; cases this
    · obtain ⟨g, hg', hgn, hgt⟩ := hi.hints _ _ h3
      have := nodup_map_inj hw.names hg' hf hgn; subst this
      refine hg.values g hf ft hgt x hx ?_
      rcases h4 with ⟨c', h5, _⟩ | ⟨_, _, h5, _⟩
      · exact ⟨s, s, _, Ext.refl s, (raises_iff hs.coh).2 (Or.inr ⟨_, h5, rfl, rfl⟩)⟩
      · exact h5
  · have hfill : ∃ fs, (W.cls c).kind = .typeddict ∨ fillFields params (W.cls c).fields = .ok fs := by
      by_cases hk : (W.cls c).kind = .typeddict
      · exact ⟨[], Or.inl hk⟩
      have : ∀ fs : List Field, (∀ f ∈ fs, f ∈ (W.cls c).fields) → ∃ r, fillFields params fs = .ok r := by
        intro fs
        induction fs with
        | nil => intro _; exact ⟨[], rfl⟩
        | cons f fs ih =>
          intro hsub
          obtain ⟨r, hr⟩ := ih (fun g hg => hsub g (by simp [hg]))
          have hf := hsub f (by simp)
          have : ∃ l, fillField params f = .ok l := by
            unfold fillField
            cases hap : aget params f.name with
            | some y => exact ⟨_, rfl⟩
            | none =>
              cases hdf : f.default with
              | some d => exact ⟨_, rfl⟩
              | none =>
                dsimp only
                have habs := (params_spec hi hw hm hn hp hf).2 hap
                cases hin : f.init with
                | false => exact ⟨_, rfl⟩
                | true =>
                  exfalso
                  refine habs (hg.required f hf (Or.inl ?_))
                  unfold Required
                  cases hk' : (W.cls c).kind with
                  | typeddict => exact absurd hk' hk
                  | namedtuple => exact hdf
                  | dataclass => exact ⟨hin, hdf⟩
                  | attrs => exact ⟨hin, hdf⟩
          obtain ⟨l, hl⟩ := this
          exact ⟨l ++ r, by simp [fillFields, hl, hr]⟩
      obtain ⟨r, hr⟩ := this _ (fun f hf => hf)
      exact ⟨r, Or.inr hr⟩
    have hargs : (W.cls c).kind = .dataclass ∨ (W.cls c).kind = .attrs → params.all (fun p => isInitArg (W.cls c) p.1) = true := by
      intro hk
      rw [List.all_eq_true]
      rintro ⟨m, y⟩ hmy
      rcases hp.sound m y hmy with h | ⟨x, ft, h1, h2, _⟩
      · cases h
      · rw [hi.fields] at h2
        obtain ⟨f, hf, rfl⟩ := List.mem_map.1 h2
        cases hia : isInitArg (W.cls c) f.name with
        | true => rfl
        | false =>
          exfalso
          refine hg.args f hf hk hia (mem_strKeys.2 ⟨x, dget_mem_str ?_⟩)
          rw [← hm.dget hi hw hn hf]
          exact dget_of_mem_str (hm.nodup hn) h1
    obtain ⟨fs, hfill⟩ := hfill
    obtain ⟨fs', hfs'⟩ := hinit fs
    unfold construct at hcon
    dsimp only at hcon
    cases hk : (W.cls c).kind with
    | typeddict => rw [hk] at hcon; cases hcon
    | namedtuple =>
      rw [hk] at hcon hfill; rcases hfill with hfill | hfill
      · cases hfill
      · simp only [hfill] at hcon; cases hcon
    | dataclass =>
      rw [hargs (Or.inl hk)] at hcon
      rw [hk] at hcon hfill; rcases hfill with hfill | hfill
      · cases hfill
      · simp only [hfill, hfs', if_true] at hcon; cases hcon
    | attrs =>
      rw [hargs (Or.inr hk)] at hcon
      rw [hk] at hcon hfill; rcases hfill with hfill | hfill
      · cases hfill
      · simp only [hfill, hfs', if_true] at hcon; cases hcon

/-- **C30** An absent optional key is no reason to refuse the data: a dictionary with the required keys, whose values are accepted by
the declared types, is loaded (it does not raise), under the rule of `typing` that keys marked NotRequired are not required keys. -/
theorem C30_not_required {c : Nat} (hd : C.Usual W (.obj c)) (hlaw : W.NotRequiredLaw) {s : LState} (hs : Reachable W C s)
    (hk : (W.cls c).kind = .typeddict) (hnames : ((W.cls c).fields.map (·.name)).Nodup)
    (hinit : ∀ fs, ∃ fs', W.initHook c fs = .ok fs')
    {kvs : List (Val × Val)} (hn : (strKeys kvs).Nodup)
    (hreq : ∀ f ∈ (W.cls c).fields, f.required = true → f.notRequired = false → f.name ∈ strKeys kvs)
    (hval : ∀ f ∈ (W.cls c).fields, ∀ x, (.str f.name, x) ∈ kvs → ¬ Fails W C s x f.ty)
    (hknown : C.failonextra = true → ∀ p ∈ kvs, ∃ f ∈ (W.cls c).fields, p.1 = .str f.name) :
    ∀ e s', ¬ Raises W C s (.dict kvs) (.obj c) e s' := by
  have hext : ∀ f : Field, extName C .typeddict f = f.name := fun f => rfl
  refine C21_complete hd hs ⟨hnames, ?_⟩ (fun f _ h => ?_) hinit hn ⟨?_, ?_, ?_, ?_⟩
  · rw [hk]
    have : (W.cls c).fields.map (extName C .typeddict) = (W.cls c).fields.map (·.name) := List.map_congr_left (fun f _ => hext f)
    rw [this]; exact hnames
  · rw [hk] at h; cases h
  · intro f hf hr
    rw [hk, hext]
    rw [hk] at hr
    rcases hr with ⟨h1, h2⟩ | ⟨_, h1⟩
    · exact hreq f hf h1 h2
    · refine hreq f hf h1 ?_
      cases h2 : f.notRequired with
      | false => rfl
      | true => have := hlaw c f hf h2; rw [h1] at this; cases this
  · intro f hf t ht x hx
    rw [hk] at ht hx
    have : t = f.ty := by
      cases ht with
      | declared => rfl
      | converter _ h => cases h
      | untyped _ h => cases h
      | manyHints _ h => cases h
    rw [this]; exact hval f hf x hx
  · intro f hf h; rw [hk] at h; simp at h
  · intro hfoe p hp
    obtain ⟨f, hf, h⟩ := hknown hfoe p hp
    exact ⟨f, hf, by rw [hk, hext]; exact h⟩

/-- **C30** The rewriting of the annotations of a TypedDict (done the first time it is loaded, and visible to everybody) changes no
outcome: two loaders that differ only in it agree on every load, under the rule of `typing` and when no Literal is wrapped in
NotRequired (see C12/C50 for what happens otherwise). -/
theorem C30_rewriting (hlaw : W.NotRequiredLaw) (hlit : W.NoHiddenLiteral) (rew rew' : List Nat) (v : Val) (t : Ty) :
    (∀ r, (∃ s', Loads W C (fresh rew) v t r s') ↔ ∃ s', Loads W C (fresh rew') v t r s') ∧
    (∀ e, (∃ s', Raises W C (fresh rew) v t e s') ↔ ∃ s', Raises W C (fresh rew') v t e s') := by
  have key : ∀ r1 r2 : List Nat, (∀ r, (∃ s', Loads W C (fresh r1) v t r s') → ∃ s', Loads W C (fresh r2) v t r s') ∧
      (∀ e, (∃ s', Raises W C (fresh r1) v t e s') → ∃ s', Raises W C (fresh r2) v t e s') := by
    intro r1 r2
    have hsim := fun n => load_rew hlaw hlit n v t (fresh r1) (fresh r2) (C := C) ⟨rfl, rfl, rfl, rfl⟩
    constructor
    · rintro r ⟨s', n, h⟩
      have := hsim n
      rw [h] at this
      cases h2 : load W C n v t (fresh r2) with
      | ok r2 s2 => rw [h2] at this; exact ⟨s2, n, by rw [h2, this.1]⟩
      | err e s2 => rw [h2] at this; exact this.elim
      | div => rw [h2] at this; exact this.elim
    · rintro r ⟨s', n, h⟩
      have := hsim n
      rw [h] at this
      cases h2 : load W C n v t (fresh r2) with
      | ok r2 s2 => rw [h2] at this; exact this.elim
      | err e s2 => rw [h2] at this; exact ⟨s2, n, by rw [h2, this.1]⟩
      | div => rw [h2] at this; exact this.elim
  exact ⟨fun r => ⟨(key rew rew').1 r, (key rew' rew).1 r⟩, fun e => ⟨(key rew rew').2 e, (key rew' rew).2 e⟩⟩

/-- The laws hold for the sample classes, and a load into the sample TypedDict ends in the same way before and after the rewriting. -/
example : Sample.W.NotRequiredLaw ∧ (∃ s', Loads Sample.W Sample.C (fresh []) (.dict [(.str "k", .int 5)]) (.obj 2) (.dict [(.str "k", .int 5)]) s') ∧
    ∃ s', Loads Sample.W Sample.C (fresh [2]) (.dict [(.str "k", .int 5)]) (.obj 2) (.dict [(.str "k", .int 5)]) s' := by
  refine ⟨?_, ⟨_, 5, rfl⟩, _, 5, rfl⟩
  intro c f hf
  match c with
  | 0 | 1 | 2 | 3 | 4 | 5 | 6 | 7 | 8 => revert f; decide
  | n + 9 => cases hf

/-- Data with which nothing is wrong, for the sample TypedDict: the optional key is absent. -/
example : GoodData Sample.W Sample.C (fresh []) 2 [(.str "k", .int 5), (.str "u", .none)] := by
  have hx : ∀ x : Val, (.str "k", x) ∈ [(Val.str "k", Val.int 5), (.str "u", .none)] → x = .int 5 := by
    intro x h
    simp at h; exact h
  refine ⟨?_, ?_, by decide, fun h => (by cases h)⟩
  · intro f hf hr
    have hf' : f = { name := "k", ty := .prim .int } ∨ f = { name := "o", ty := .prim .str, required := false, notRequired := true } := by
      simpa [Sample.W, Sample.cls, Sample.clsT] using hf
    rcases hf' with rfl | rfl
    · decide
    · rcases hr with ⟨h, _⟩ | ⟨_, h⟩ <;> cases h
  intro f hf t ht x hx' hfail
  have hf' : f = { name := "k", ty := .prim .int } ∨ f = { name := "o", ty := .prim .str, required := false, notRequired := true } := by
    simpa [Sample.W, Sample.cls, Sample.clsT] using hf
  rcases hf' with rfl | rfl
  · have hxx := hx x hx'
    subst hxx
    have : t = .prim .int := by cases ht with
      | declared => rfl
      | converter _ h => cases h
      | untyped _ h => cases h
      | manyHints _ h => cases h
    subst this
    obtain ⟨s1, s2, e, he, hr⟩ := hfail
    have hcoh := (Reachable.new (W := Sample.W) (C := Sample.C) (some []) []).coh.ext he
    rcases (raises_iff hcoh).1 hr with ⟨n, h, e', hp, hr, _⟩ | ⟨_, hp, _⟩
    · have : pick Sample.W Sample.C (.prim .int) = .ok .basicload := rfl
      rw [this] at hp; cases hp
      cases n with
      | zero => cases hr
      | succ n => cases hr
    · have : pick Sample.W Sample.C (.prim .int) = .ok .basicload := rfl
      rw [this] at hp; cases hp
  · exfalso
    have : extName Sample.C (Sample.W.cls 2).kind { name := "o", ty := .prim .str, required := false, notRequired := true } = "o" := rfl
    rw [this] at hx'; simp at hx'

end TL
