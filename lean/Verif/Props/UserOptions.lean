import Verif.Props.ThreadsUser
import Verif.Props.Options
import Verif.Props.Faults
/-!
# C58, C63 with handlers added by the user
-/

namespace TL

variable {W : World}

/-- **C58** For any handler list: after any history, in which the options `basiccast`, `failonextra`, `dictequivalence` and `uniondebugconflict`
have changed any number of times, a loader has the outcome of any other loader with the present options, within the conditions of C06. -/
theorem C58_user {C C' : Config} (h1 : W.NotRequiredLaw) (h2 : W.SteadyTags) (hcc : C.Retuned C') {s s' : LState}
    (hs : Reachable W C s) (hs' : Reachable W C' s') {v : Val} {t : Ty} (hn : SameNamesOf W C' (namesIn W s t) (namesIn W s' t) t)
    (hst : SteadyOf W C' (namesIn W s t) v t) :
    (∀ r, (∃ s1, Loads W C' s v t r s1) ↔ ∃ s1, Loads W C' s' v t r s1) ∧
    (∀ e, (∃ s1, Raises W C' s v t e s1) ↔ ∃ s1, Raises W C' s' v t e s1) ∧
    (Diverges W C' s v t ↔ Diverges W C' s' v t) :=
  C06_user_partial h1 h2 (hs.retune hcc) hs' hn hst

/-- **C63** For any handler list: a loader whose loads are abandoned at any point, possibly inside a handler of the user that has called the loader
back, remains usable: it gives the results, and raises the exceptions, that it gave before. -/
theorem C63_user {C : Config} (h1 : W.NotRequiredLaw) (h2 : W.SteadyTags) {s s' : LState} (hs : Reachable W C s) {v0 : Val} {t0 : Ty}
    (ha : Abandoned W C s v0 t0 s') {v : Val} {t : Ty} (hn : SameNamesOf W C (namesIn W s t) (namesIn W s' t) t) (hst : SteadyOf W C (namesIn W s t) v t) :
    (∀ r, (∃ s1, Loads W C s v t r s1) ↔ ∃ s1, Loads W C s' v t r s1) ∧
    (∀ e, (∃ s1, Raises W C s v t e s1) ↔ ∃ s1, Raises W C s' v t e s1) ∧
    (Diverges W C s v t ↔ Diverges W C s' v t) := by
  refine C06_user_partial h1 h2 hs ?_ hn hst
  rcases ha with ⟨n, c, hc, rfl⟩ | ⟨F, n, h⟩
  · exact hs.shared _ ⟨rfl, rfl, rfl, rfl, rfl⟩ hc
  · exact hs.faulted F n ⟨rfl, rfl, rfl, rfl, rfl⟩ h

theorem Sample.no_fref_path {Γ : Env} {n : String} : ¬ UsesOf Sample.WB Sample.CB Γ (.coll .list (.strcons "Path")) (.fref n) := fun h => by
  have := Sample.uses_path h; simp at this
theorem Sample.no_dict_path {Γ : Env} {k w : Ty} : ¬ UsesOf Sample.WB Sample.CB Γ (.coll .list (.strcons "Path")) (.dict k w) := fun h => by
  have := Sample.uses_path h; simp at this

theorem Sample.steady_path {C : Config} (hc : ∀ Γ u, UsesOf Sample.WB C Γ (.coll .list (.strcons "Path")) u → UsesOf Sample.WB Sample.CB Γ (.coll .list (.strcons "Path")) u)
    (Γ : Env) (v : Val) : SteadyOf Sample.WB C Γ v (.coll .list (.strcons "Path")) :=
  ⟨fun _ _ _ hu => absurd (hc _ _ hu) Sample.no_fref_path, fun _ _ hu => absurd (hc _ _ hu) Sample.no_dict_path,
    fun _ _ hu => absurd (hc _ _ hu) Sample.no_dict_path, fun _ _ hu => absurd (hc _ _ hu) Sample.no_dict_path,
    fun _ _ _ hu => absurd (hc _ _ hu.uses) Sample.no_dict_path, fun _ _ _ hu => absurd (hc _ _ hu.uses) Sample.no_dict_path⟩

/-- C63: the first load of a list of paths runs out of stack inside the handler of the user; the loader then loads such lists as before. -/
example (v : Val) : ∃ e s1, loadFaulty Sample.WB Sample.CB (stackLimit .runtime) 2 (.list [.str "5"]) (.coll .list (.strcons "Path")) (fresh []) = .err e s1 ∧
    s1.idx ≠ [] ∧ ∀ r, (∃ s2, Loads Sample.WB Sample.CB (fresh []) v (.coll .list (.strcons "Path")) r s2) ↔
      ∃ s2, Loads Sample.WB Sample.CB s1 v (.coll .list (.strcons "Path")) r s2 := by
  have hl : ∃ e s1, loadFaulty Sample.WB Sample.CB (stackLimit .runtime) 2 (.list [.str "5"]) (.coll .list (.strcons "Path")) (fresh []) = .err e s1 ∧
      s1.idx ≠ [] ∧ s1.frefs = some [] := ⟨_, _, rfl, by decide, rfl⟩
  obtain ⟨e, s1, hl, hi, hfr⟩ := hl
  refine ⟨e, s1, hl, hi, ?_⟩
  exact (C63_user (W := Sample.WB) Sample.notRequiredLaw ⟨Sample.steadyTags.1, Sample.steadyTags.2⟩ (s := fresh []) (.new (some []) []) (Or.inr ⟨_, _, Or.inr ⟨_, hl⟩⟩)
    ⟨by simp [namesIn, fresh, hfr], fun _ _ _ _ _ hu => absurd hu Sample.no_fref_path⟩ (Sample.steady_path (fun _ _ h => h) _ v)).1

/-- C58: a loader with a handler of the user that has loaded paths, and on which `failonextra` is then set. -/
example (v : Val) : ∃ r s1, Loads Sample.WB Sample.CB (fresh []) (.str "5") (.strcons "Path") r s1 ∧
    ∀ r', (∃ s2, Loads Sample.WB { Sample.CB with failonextra := true } s1 v (.coll .list (.strcons "Path")) r' s2) ↔
      ∃ s2, Loads Sample.WB { Sample.CB with failonextra := true } (fresh []) v (.coll .list (.strcons "Path")) r' s2 := by
  have hl : ∃ r s1, Loads Sample.WB Sample.CB (fresh []) (.str "5") (.strcons "Path") r s1 ∧ s1.frefs.isSome = true := ⟨_, _, ⟨9, rfl⟩, rfl⟩
  obtain ⟨r, s1, hl, hfr⟩ := hl
  refine ⟨r, s1, hl, ?_⟩
  have hpk : ∀ t, pick Sample.WB { Sample.CB with failonextra := true } t = pick Sample.WB Sample.CB t := fun t => (Config.Retuned.pick ⟨rfl, rfl, rfl, rfl, rfl⟩ t)
  have huse : ∀ Γ u, UsesOf Sample.WB { Sample.CB with failonextra := true } Γ (.coll .list (.strcons "Path")) u →
      UsesOf Sample.WB Sample.CB Γ (.coll .list (.strcons "Path")) u := by
    intro Γ u h
    induction h with
    | self => exact .self
    | coll _ ih => exact .coll ih
    | tuple _ h ih => exact .tuple ih h
    | dictKey _ ih => exact .dictKey ih
    | dictVal _ ih => exact .dictVal ih
    | union _ h ih => exact .union ih h
    | newtype _ ih => exact .newtype ih
    | enum _ h ih => exact .enum ih h
    | field _ h1 h2 ih => exact .field ih h1 h2
    | fref f _ h1 h2 ih => exact .fref f ih h1 h2
    | asks _ h1 h2 ih => exact .asks ih (by rw [← hpk]; exact h1) h2
  exact (C58_user (W := Sample.WB) Sample.notRequiredLaw ⟨Sample.steadyTags.1, Sample.steadyTags.2⟩ (C := Sample.CB) (C' := { Sample.CB with failonextra := true }) (t := .coll .list (.strcons "Path")) ⟨rfl, rfl, rfl, rfl, rfl⟩
    ((Reachable.new (W := Sample.WB) (some []) []).ok hl) (.new (some []) [])
    ⟨by unfold namesIn; cases hf : s1.frefs with
        | none => rw [hf] at hfr; cases hfr
        | some _ => simp, fun _ _ _ _ _ hu => absurd (huse _ _ hu) Sample.no_fref_path⟩ (Sample.steady_path huse _ v)).1

end TL
