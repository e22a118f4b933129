import Verif.Props.Stock
import Verif.Props.Faults
/-!
# C62 with handlers added by the user for other types, and C83 when calls fail
-/

namespace TL

variable {W : World} {C : Config} {F : Names} {G : Ty → Prop}

/-- A run whose calls may fail reaches good states only. -/
theorem Sat.runFaulty (hcl : Closed W C G F) (X : Faults) (n : Nat) :
    ∀ h v t, Installed C h → G t → Sat W C F (TL.runFaulty W C X n h v t) (fun _ => True) := by
  induction n with
  | zero => intro h v t _ _ s _; trivial
  | succ n ih =>
    intro h v t hin hg s hs
    unfold TL.runFaulty Post
    dsimp only
    cases X n h v t s with
    | some c => exact ⟨hs, trivial⟩
    | none => exact ((Sat.step (P := fun _ _ _ _ => True) hcl ih h v t hin hg).mono (fun _ _ => trivial)) s hs

/-- Two handler lists that agree on a closed set of types give the same runs, whatever fails. -/
theorem SameAt.runFaulty {C' : Config} (hpick : Config.Agree W C C' G) (hcl : Closed W C G F) (X : Faults) (n : Nat) :
    ∀ h v t, Installed C h → G t → SameAt W C F (TL.runFaulty W C X n h v t) (TL.runFaulty W C' X n h v t) := by
  induction n with
  | zero => intro h v t _ _; exact SameAt.rfl'
  | succ n ih =>
    intro h v t hin hg s hs
    simp only [TL.runFaulty]
    cases X n h v t s with
    | some c => rfl
    | none => exact SameAt.step hpick hcl (Sat.runFaulty hcl X n) ih h v t hin hg s hs

/-- **C83** Two loaders whose lists of handlers select the same handler for every type that can be met while loading into `t` behave the same
on `t` also when calls fail in the middle of the load, the same ones in both. -/
theorem C83_same_choice_faults {s : LState} (hs : Reachable W C s) (t : Ty) (hands : List (Cond × Handler))
    (hsame : ∀ u, Meets W C s t u → pick W { C with handlers := hands } u = pick W C u) (X : Faults) (n : Nat) (v : Val) :
    loadFaulty W { C with handlers := hands } X n v t s = loadFaulty W C X n v t s := by
  have hpick : Config.Agree W C { C with handlers := hands } (Meets W C s t) :=
    ⟨rfl, rfl, rfl, rfl, fun _ _ => rfl, fun _ _ _ _ => rfl, fun u hu => (hsame u hu).symm⟩
  exact (SameAt.loadWith hpick (Meets.closed s t) (SameAt.runFaulty hpick (Meets.closed s t) X n) v .self none s (hs.good_meets t)).symm

/-- The states of a loader that was used only with types for which the user changed nothing, some of whose loads may have had calls that failed
(no stack left, no memory left, a signal). -/
inductive UsualFaulty (W : World) (C : Config) : LState → Prop
  | usual {s} : UsualHistory W C s → UsualFaulty W C s
  | loaded {s s' X n v t r} : UsualFaulty W C s → (∀ u, Meets W C s t u → C.Usual W u) → loadFaulty W C X n v t s = .ok r s' → UsualFaulty W C s'
  | raised {s s' X n v t e} : UsualFaulty W C s → (∀ u, Meets W C s t u → C.Usual W u) → loadFaulty W C X n v t s = .err e s' → UsualFaulty W C s'
  | setFrefs {s} (frefs : Option (List (String × Ty))) : UsualFaulty W C s → UsualFaulty W C { s with frefs := frefs }

theorem UsualFaulty.both {s : LState} (h : UsualFaulty W C s) : Reachable W C s ∧ Reachable W C.stock s := by
  induction h with
  | usual h => exact ⟨h.reachable, C83_stock_state h⟩
  | @loaded s s' X n v t r _ hus h ih =>
    refine ⟨ih.1.faulted X n ⟨rfl, rfl, rfl, rfl, rfl⟩ (.inl ⟨_, h⟩), ih.2.faulted X n (v := v) (t := t) ⟨rfl, rfl, rfl, rfl, rfl⟩ (.inl ⟨r, ?_⟩)⟩
    exact (C83_same_choice_faults ih.1 t defaultHandlers (fun u hu => (hus u hu).symm) X n v).trans h
  | @raised s s' X n v t e _ hus h ih =>
    refine ⟨ih.1.faulted X n ⟨rfl, rfl, rfl, rfl, rfl⟩ (.inr ⟨_, h⟩), ih.2.faulted X n (v := v) (t := t) ⟨rfl, rfl, rfl, rfl, rfl⟩ (.inr ⟨e, ?_⟩)⟩
    exact (C83_same_choice_faults ih.1 t defaultHandlers (fun u hu => (hus u hu).symm) X n v).trans h
  | setFrefs frefs _ ih => exact ⟨ih.1.setFrefs frefs, ih.2.setFrefs frefs⟩

/-- **C83** A loader used only with types for which the user changed nothing, some of whose loads failed in the middle for lack of stack or memory, still
does what a loader with the default list of handlers does. -/
theorem C83_stock_faults {s : LState} (h : UsualFaulty W C s) {t : Ty} (hus : ∀ u, Meets W C s t u → C.Usual W u) :
    Reachable W C.stock s ∧ (∀ n v, load W C.stock n v t s = load W C n v t s) ∧
    ∀ X n v, loadFaulty W C.stock X n v t s = loadFaulty W C X n v t s :=
  ⟨h.both.2, fun n v => load_stock h.both.1 hus n v,
    fun X n v => C83_same_choice_faults h.both.1 t defaultHandlers (fun u hu => (hus u hu).symm) X n v⟩

section
variable {s : LState} (hs : UsualFaulty W C s) {t : Ty} (hus : ∀ u, Meets W C s t u → C.Usual W u)
include hs hus

/-- **C62** (partial), with handlers of the user for other types: a value that is returned although calls failed is the one that the load returns when
nothing fails. -/
theorem C62_no_wrong_value_user_partial (h1 : W.NotRequiredLaw) (h2 : W.SteadyTags) {v : Val}
    (hst : Steady W C.stock (namesIn W s t) v t) (hnc : NoChoice W C.stock (namesIn W s t) v t) (X : Faults)
    (hX : ∀ n h x u s', X n h x u s' ≠ some .stopIteration) {n : Nat} {r : Val} {s' : LState} (h : loadFaulty W C X n v t s = .ok r s') :
    ∃ s1, Loads W C s v t r s1 := by
  obtain ⟨a, b, c⟩ := C83_stock_faults hs hus
  obtain ⟨s1, n1, h1⟩ := C62_no_wrong_value_partial Config.stock_default h1 h2 a hst hnc X hX ((c X n v).trans h)
  exact ⟨s1, n1, (b n1 v).symm.trans h1⟩

/-- **C62**, with handlers of the user for other types, for programs whose unions are all Optional and whose Enums have one annotation at most. -/
theorem C62_optional_user (h1 : W.NotRequiredLaw) (h2 : W.SteadyTags) {v : Val}
    (hst : Steady W C.stock (namesIn W s t) v t) (hbt : .none ∈ C.basictypes)
    (hu : ∀ ts, Uses W (namesIn W s t) t (.union ts) → ∃ u, ts = [u, .prim .none] ∨ ts = [.prim .none, u])
    (he : ∀ e, Uses W (namesIn W s t) t (.enum e) → (W.enm e).hints.length ≤ 1) (X : Faults)
    (hX : ∀ n h x u s', X n h x u s' ≠ some .stopIteration) {n : Nat} {r : Val} {s' : LState} (h : loadFaulty W C X n v t s = .ok r s') :
    ∃ s1, Loads W C s v t r s1 := by
  obtain ⟨a, b, c⟩ := C83_stock_faults hs hus
  obtain ⟨s1, n1, h1⟩ := C62_optional Config.stock_default h1 h2 a hst hbt hu he X hX ((c X n v).trans h)
  exact ⟨s1, n1, (b n1 v).symm.trans h1⟩
end

/-! ## The hypotheses are met -/

/-- A loader with a handler of the user for other types loses a first list for lack of stack, and remembers what it found on the way; what it
returns afterwards, with any stack left, is what is returned with all of it. -/
example (v r : Val) (n : Nat) (s' : LState) : ∃ e s1, loadFaulty Sample.WB Sample.CB (stackLimit .runtime) 2 (.list [.str "5"]) (.coll .list (.prim .int)) (fresh []) = .err e s1 ∧
    s1.idx ≠ [] ∧ UsualFaulty Sample.WB Sample.CB s1 ∧ (loadFaulty Sample.WB Sample.CB (stackLimit .runtime) n v (.coll .list (.prim .int)) s1 = .ok r s' →
      ∃ s2, Loads Sample.WB Sample.CB s1 v (.coll .list (.prim .int)) r s2) := by
  have hl : ∃ e s1, loadFaulty Sample.WB Sample.CB (stackLimit .runtime) 2 (.list [.str "5"]) (.coll .list (.prim .int)) (fresh []) = .err e s1 ∧
      s1.idx ≠ [] ∧ s1.frefs = some [] := ⟨_, _, rfl, by decide, rfl⟩
  obtain ⟨e, s1, hl, hi, hfr⟩ := hl
  have hus : ∀ u, Meets Sample.WB Sample.CB (fresh []) (.coll .list (.prim .int)) u → Sample.CB.Usual Sample.WB u := Sample.usual_ints true false
  have hm : ∀ u, Meets Sample.WB Sample.CB s1 (.coll .list (.prim .int)) u → Meets Sample.WB Sample.CB (fresh []) (.coll .list (.prim .int)) u := by
    intro u h
    induction h with
    | self => exact .self
    | known h => obtain ⟨fr, h1, h2⟩ := h; rw [hfr] at h1; cases h1; cases h2
    | coll _ ih => exact .coll ih
    | tuple _ h ih => exact .tuple ih h
    | dictKey _ ih => exact .dictKey ih
    | dictVal _ ih => exact .dictVal ih
    | union _ h ih => exact .union ih h
    | newtype _ ih => exact .newtype ih
    | enum _ h ih => exact .enum ih h
    | field _ h1 h2 ih => exact .field ih h1 h2
    | custom hi _ ha ih => exact .custom hi ih ha
  have h1 : UsualFaulty Sample.WB Sample.CB s1 := .raised (.usual (.new (some []) [])) hus hl
  refine ⟨e, s1, hl, hi, h1, fun h => ?_⟩
  refine C62_optional_user h1 (fun u hu => hus u (hm u hu)) Sample.wb_notRequiredLaw Sample.wb_steadyTags ?_ (by decide)
    (fun ts hu => absurd (Sample.uses_ints hu) (by simp)) (fun e hu => absurd (Sample.uses_ints hu) (by simp)) _ ?_ h
  · exact ⟨fun _ _ _ hu => absurd (Sample.uses_ints hu) (by simp), fun _ _ hu => absurd (Sample.uses_ints hu) (by simp),
      fun _ _ hu => absurd (Sample.uses_ints hu) (by simp), fun _ _ _ hu => absurd (Sample.uses_ints hu.uses) (by simp),
      fun _ _ _ hu => absurd (Sample.uses_ints hu.uses) (by simp)⟩
  · intro n h x u s'
    unfold stackLimit
    split <;> simp

end TL
