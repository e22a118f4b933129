import Verif.Props.Complete
import Verif.Props.Dicts
import Verif.Props.Errors
import Verif.Props.Terminates
/-!
# Complements to C07, C08, C17, C21 and C30: errors of forward references, and data with which nothing is wrong is accepted

C17_complete, C21_complete and C30_not_required say that a load does not raise; together with C45 it returns.
-/

namespace TL

variable {W : World} {C : Config}

/-- No infinite sequence of types is tried on the same part of the data (see C45). -/
def LoadEnds (W : World) (C : Config) (s : LState) (v : Val) (t : Ty) : Prop :=
  ∀ w, Within v w → ∀ u, Meets W C s t u → ¬ Endless (Retry W C s t w) u

theorem LoadEnds.loads (hd : C.Default) {s : LState} (hs : Reachable W C s) {v : Val} {t : Ty} (h : LoadEnds W C s v t)
    (hno : ∀ e s', ¬ Raises W C s v t e s') : ∃ r s', Loads W C s v t r s' := by
  rcases C45_terminates hs v t (fun i hi => absurd hi (not_installed hd i)) h with h | ⟨e, s', h⟩
  · exact h
  · exact absurd h (hno e s')

/-- **C17** (completeness). If the data is a dictionary, each key accepted by `K` and each value by `V` whatever the caches hold, with hashable outcomes for the
keys, then the load returns a dictionary. -/
theorem C17_accepts (hd : C.Default) {s : LState} {kt vt : Ty} (hs : Reachable W C s) {v : Val} {kvs : List (Val × Val)}
    {hk hv : Handler} (hpk : pick W C kt = .ok hk) (hpv : pick W C vt = .ok hv) (hdata : DictData C v kvs)
    (hall : ∀ p ∈ kvs, ∀ s1, Ext W C s s1 → (∃ k' s2, Loads W C s1 p.1 kt k' s2 ∧ W.hash k' = true) ∧ (∃ x' s2, Loads W C s1 p.2 vt x' s2))
    (hend : LoadEnds W C s v (.dict kt vt)) : ∃ r s', Loads W C s v (.dict kt vt) r s' :=
  hend.loads hd hs (C17_complete hd.usual hs hpk hpv hdata hall)

/-- **C21** (completeness). Data with which nothing is wrong is loaded into the class: the load returns an object. -/
theorem C21_accepts (hd : C.Default) {c : Nat} {s : LState} (hs : Reachable W C s) (hw : WFNames C (W.cls c).kind (W.cls c).fields)
    (ha : ∀ f ∈ (W.cls c).fields, (W.cls c).kind = .attrs → ∃ t, FieldTy .attrs f t) (hinit : ∀ fs, ∃ fs', W.initHook c fs = .ok fs')
    {kvs : List (Val × Val)} (hn : (strKeys kvs).Nodup) (hg : GoodData W C s c kvs) (hend : LoadEnds W C s (.dict kvs) (.obj c)) :
    ∃ r s', Loads W C s (.dict kvs) (.obj c) r s' :=
  hend.loads hd hs (C21_complete hd.usual hs hw ha hinit hn hg)

/-- **C30** (completeness). A dictionary with the required keys, whose values are accepted by the declared types, is loaded, whatever optional keys are absent. -/
theorem C30_accepts (hd : C.Default) {c : Nat} (hlaw : W.NotRequiredLaw) {s : LState} (hs : Reachable W C s) (hk : (W.cls c).kind = .typeddict)
    (hnames : ((W.cls c).fields.map (·.name)).Nodup) (hinit : ∀ fs, ∃ fs', W.initHook c fs = .ok fs') {kvs : List (Val × Val)} (hn : (strKeys kvs).Nodup)
    (hreq : ∀ f ∈ (W.cls c).fields, f.required = true → f.notRequired = false → f.name ∈ strKeys kvs)
    (hval : ∀ f ∈ (W.cls c).fields, ∀ x, (.str f.name, x) ∈ kvs → ¬ Fails W C s x f.ty)
    (hknown : C.failonextra = true → ∀ p ∈ kvs, ∃ f ∈ (W.cls c).fields, p.1 = .str f.name) (hend : LoadEnds W C s (.dict kvs) (.obj c)) :
    ∃ r s', Loads W C s (.dict kvs) (.obj c) r s' :=
  hend.loads hd hs (C30_not_required hd.usual hlaw hs hk hnames hinit hn hreq hval hknown)

/-- **C08** (known, errors). Loading into `ForwardRef(n)` fails exactly when loading into the registered type does, with an exception of the same class, with the same
description, value, type and sub-exceptions; its trace begins with the forward reference. -/
theorem C08_known_error {s : LState} (hs : Reachable W C s) (hcc : CalmConditions W C) (hw : W.FrefNoName) {n : String} (hd : FrefDefault W C n)
    {fr : List (String × Ty)} (hf : s.frefs = some fr) {t : Ty} (hn : aget fr n = some t) (v : Val) :
    ∃ s0, Ext W C s s0 ∧ s0.frefs = s.frefs ∧
      (∀ e s', Raises W C s v (.fref n) e s' → ∃ e', Raises W C s0 v t e' s' ∧ e.cls = e'.cls ∧
        (e'.isTL = true → e.msg = e'.msg ∧ e.value = e'.value ∧ e.ty = e'.ty ∧ e.subs = e'.subs ∧
          e.trace = ⟨v, .fref n, none⟩ :: (if e'.trace = [] then [] else ⟨v, t, some (.forwardref n)⟩ :: e'.trace.tail))) ∧
      ∀ e' s', Raises W C s0 v t e' s' → ∃ e, Raises W C s v (.fref n) e s' := by
  have hstep : ∀ m, run W C (m + 1) .forwardrefload v (.fref n) (cacheReg W (.fref n) .forwardrefload s) =
      loadWith W C (run W C m) v t (some (.forwardref n)) (cacheReg W (.fref n) .forwardrefload s) := by
    intro m
    simp only [run, step, forwardrefload, M.bind_apply, M.get_apply, cacheReg_fref hw, hf, hn]
  have he0 : Ext W C s (cacheReg W (.fref n) .forwardrefload s) := cacheReg_ext hd
  have hc0 : Coh W C (cacheReg W (.fref n) .forwardrefload s) := hs.coh.ext he0
  refine ⟨_, he0, cacheReg_fref hw, ?_, ?_⟩
  · intro e s' h
    rcases (raises_iff hs.coh).1 h with ⟨m, h, e', hk', hr, rfl⟩ | ⟨c, hk', _⟩
    · rw [hd] at hk'; cases hk'
      cases m with
      | zero => cases hr
      | succ m =>
        rw [hstep, loadWith_eq hc0] at hr
        cases hp : pick W C t with
        | error c =>
          rw [hp] at hr
          have := pick_error_value hcc hp; subst this
          cases hr
          exact ⟨_, (raises_iff hc0).2 (Or.inr ⟨_, hp, rfl, rfl⟩), rfl, fun _ => ⟨rfl, rfl, rfl, rfl, rfl⟩⟩
        | ok hh =>
          rw [hp] at hr
          dsimp only at hr
          cases hx : run W C m hh v t (cacheReg W t hh (cacheReg W (.fref n) .forwardrefload s)) with
          | ok a s1 => rw [hx] at hr; cases hr
          | div => rw [hx] at hr; cases hr
          | err e2 s1 =>
            rw [hx] at hr; cases hr
            refine ⟨_, (raises_iff hc0).2 (Or.inl ⟨m, hh, e2, hp, hx, rfl⟩), ?_, ?_⟩
            · cases h2 : e2.isTL <;> simp [loadExc, h2, ExcClass.isTL]
            · intro h3
              cases h2 : e2.isTL
              · simp [loadExc, h2, ExcClass.isTL] at h3
              · simp [loadExc, h2]
    · rw [hd] at hk'; cases hk'
  · rintro e' s' ⟨m, hr⟩
    rw [load_eq hc0] at hr
    have key : ∃ e2, loadWith W C (run W C m) v t (some (.forwardref n)) (cacheReg W (.fref n) .forwardrefload s) = .err e2 s' := by
      rw [loadWith_eq hc0]
      cases hp : pick W C t with
      | error c => rw [hp] at hr; cases hr; exact ⟨_, rfl⟩
      | ok hh =>
        rw [hp] at hr
        dsimp only at hr ⊢
        cases hx : run W C m hh v t (cacheReg W t hh (cacheReg W (.fref n) .forwardrefload s)) with
        | ok a s1 => rw [hx] at hr; cases hr
        | div => rw [hx] at hr; cases hr
        | err e2 s1 => rw [hx] at hr; cases hr; exact ⟨_, rfl⟩
    obtain ⟨e2, h2⟩ := key
    exact ⟨_, (raises_iff hs.coh).2 (Or.inl ⟨m + 1, _, e2, hd, by rw [hstep]; exact h2, rfl⟩)⟩

/-! ## The hypotheses are met -/

/-- `{'a': '5'}` and `Dict[str, int]`: the load ends. -/
theorem Sample.ends_dict (s : LState) (hf : s.frefs = some []) (v : Val) : LoadEnds Sample.W Sample.C s v (.dict (.prim .str) (.prim .int)) := by
  have hm : ∀ u, Meets Sample.W Sample.C s (.dict (.prim .str) (.prim .int)) u → u = .dict (.prim .str) (.prim .int) ∨ u = .prim .str ∨ u = .prim .int := by
    intro u h
    induction h with
    | self => simp
    | known hb => obtain ⟨fr, h1, h2⟩ := hb; rw [hf] at h1; cases h1; cases h2
    | coll _ ih => simp at ih
    | tuple _ _ ih => simp at ih
    | dictKey _ ih => simp at ih; simp [ih]
    | dictVal _ ih => simp at ih; simp [ih]
    | union _ hu ih => simp at ih
    | newtype _ ih => simp at ih
    | enum _ _ ih => simp at ih
    | custom hi _ _ => exact absurd hi (not_installed (C := Sample.C) rfl _)
    | field _ hf ht ih => simp at ih
  intro w _ u hu
  apply not_endless_of_acc
  apply Flat.acc (Config.Default.standalone (C := Sample.C) rfl)
  rcases hm u hu with rfl | rfl | rfl <;>
  exact .other (fun _ _ h => (by cases h)) (fun _ h => (by cases h)) (fun _ h => (by cases h)) (fun _ _ h => (by cases h)) (fun _ h => (by cases h)) (fun _ h => (by cases h))

example : ∃ r s', Loads Sample.W Sample.C (fresh []) (.dict [(.str "a", .str "5")]) (.dict (.prim .str) (.prim .int)) r s' :=
  have hp1 := pick_basic (W := Sample.W) (C := Sample.C) rfl (p := .str) (by decide) (by decide)
  have hp2 := pick_basic (W := Sample.W) (C := Sample.C) rfl (p := .int) (by decide) (by decide)
  C17_accepts (C := Sample.C) rfl (Reachable.new (some []) []) hp1 hp2 (Or.inl rfl)
    (fun p hp s1 he => by
      simp at hp; subst hp
      constructor
      · obtain ⟨s', h⟩ := (leaf_loads (W := Sample.W) (C := Sample.C) (v := .str "a") ((Reachable.new (some []) []).coh.ext he) hp1
          (x := .ok (.str "a")) (fun _ _ => rfl) (.str "a")).2 rfl
        exact ⟨_, s', h, rfl⟩
      · obtain ⟨s', h⟩ := (leaf_loads (W := Sample.W) (C := Sample.C) (v := .str "5") ((Reachable.new (some []) []).coh.ext he) hp2
          (x := .ok (.int 5)) (fun _ _ => rfl) (.int 5)).2 rfl
        exact ⟨_, s', h⟩)
    (Sample.ends_dict _ rfl _)

example : Sample.W.FrefNoName ∧ FrefDefault Sample.W Sample.C "Node" ∧ CalmConditions Sample.W Sample.C :=
  ⟨fun _ => rfl, by unfold FrefDefault; decide, Config.Default.calm rfl⟩
example : (load Sample.W Sample.C 5 (.str "x") (.fref "I") { frefs := some [("I", .prim .int)] }).err?.map (fun e => (e.cls, e.trace.map (·.ann))) =
    some (.tlValue, [none, some (.forwardref "I")]) := by decide

end TL
