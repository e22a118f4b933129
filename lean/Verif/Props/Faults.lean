import Verif.Lemmas.Faults
import Verif.Props.Order
/-!
# C62: running out of stack, memory or time
-/

namespace TL

variable {W : World} {C : Config}

/-! ## Specification -/

/-- The data `v` loaded into `t`, the forward references meaning `Γ`, is refused with one of typedload's exceptions: by a loader that knows the same names. -/
def Refused (W : World) (C : Config) (Γ : Env) (v : Val) (t : Ty) : Prop :=
  ∃ s e s', Reachable W C s ∧ SameNames W Γ (namesIn W s t) t ∧ Raises W C s v t e s' ∧ e.isTL = true

/-- The data leaves no choice: of any two members of a union that is met, one refuses (the shortcut for exact basic types aside); an Enum that is met
has one annotation at most, or the data is the value of a member. -/
structure NoChoice (W : World) (C : Config) (Γ : Env) (v : Val) (t : Ty) : Prop where
  unions : ∀ x ts, Reaches W C Γ v t x (.union ts) → ¬ (C.isBasic (typeOf x) = true ∧ typeOf x ∈ ts) →
    ts.Pairwise (fun a b => Refused W C Γ x a ∨ Refused W C Γ x b)
  enums : ∀ x e, Reaches W C Γ v t x (.enum e) → enumCall W e x ≠ none ∨ (W.enm e).hints.length ≤ 1

/-! ## Proof -/

theorem Refused.spurns (hd : C.Default) (h1 : W.NotRequiredLaw) (h2 : W.SteadyTags) {Γ : Env} {v : Val} {t u : Ty} (hst : Steady W C Γ v u)
    (h : Refused W C Γ v u) : Spurns W C Γ v t u := by
  obtain ⟨s, e, s', hs, hn, hr, htl⟩ := h
  obtain ⟨n, hr⟩ := (raises_ref hd h1 h2 hs hn hst e).1 ⟨s', hr⟩
  unfold Ref.load at hr
  cases hp : pick W C u with
  | error c =>
    unfold Ref.loadWith Ref.resolve at hr
    rw [hp] at hr
    cases hr
    refine ⟨Ref.lookupError (mkExc .tlValue (.noHandlerIn u t) v u) c, ⟨0, fun _ _ => by unfold attempt Ref.resolve; rw [hp]; rfl⟩, ?_⟩
    unfold Ref.lookupError at htl ⊢
    split at htl
    · rename_i hc; rw [if_pos hc]; rfl
    · rename_i hc; rw [if_neg hc]; exact htl
  | ok h =>
    rw [ref_loadWith_eq hp] at hr
    cases hx : Ref.run W C Γ n h v u () with
    | ok r' s0 => rw [hx] at hr; cases hr
    | div => rw [hx] at hr; cases hr
    | err e0 s0 =>
      rw [hx] at hr
      have he0 : e0.isTL = true := by
        cases hr
        unfold loadExc at htl
        cases h5 : e0.isTL with
        | true => rfl
        | false => rw [h5] at htl; exact htl
      obtain ⟨h', hp', he⟩ := Declines.of_run hp hx
      exact ⟨e0, Er.bind2 (Ok.resolve hp') he, he0⟩

theorem NoChoice.decided (hd : C.Default) (h1 : W.NotRequiredLaw) (h2 : W.SteadyTags) {Γ : Env} {v : Val} {t : Ty} (hst : Steady W C Γ v t)
    (h : NoChoice W C Γ v t) : Decided W C Γ (Reaches W C Γ v t) where
  union x ts hx hsc := by
    have := h.unions x ts hx (by simpa using hsc)
    unfold Apart
    refine List.Pairwise.imp_of_mem ?_ this
    intro a b ha hb hab
    exact hab.imp (fun h => h.spurns hd h1 h2 (hst.part (.member hx ha))) (fun h => h.spurns hd h1 h2 (hst.part (.member hx hb)))
  enum x e hx hn := (h.enums x e hx).resolve_left (fun h => h hn)

/-- **C62** Whatever calls fail in the middle of a load (the stack, the memory or the time running out: `F` says which calls raise what), a value that is
returned is the one that the load returns when nothing fails.

Asked for: the data leaves no choice to unions and Enums (`NoChoice`; without this it is false, see `C62_counterexample` and `C62_enum_counterexample`), and the
conditions of C06 (`Steady`). -/
theorem C62_no_wrong_value_partial (hd : C.Default) (h1 : W.NotRequiredLaw) (h2 : W.SteadyTags) {s : LState} (hs : Reachable W C s) {v : Val} {t : Ty}
    (hst : Steady W C (namesIn W s t) v t) (hnc : NoChoice W C (namesIn W s t) v t) (F : Faults)
    (hF : ∀ n h x u s', F n h x u s' ≠ some .stopIteration) {n : Nat} {r : Val} {s' : LState} (h : loadFaulty W C F n v t s = .ok r s') :
    ∃ s1, Loads W C s v t r s1 := by
  have hc := hs.coh
  refine (loads_ref hd h1 h2 hs (SameNames.refl _ _) hst r).2 ?_
  unfold loadFaulty at h
  rw [loadWith_eq hc] at h
  cases hp : pick W C t with
  | error c => rw [hp] at h; cases h
  | ok hd' =>
    rw [hp] at h
    have h3 := Fl.runFaulty (hst.tame hd h1 h2) hd (hnc.decided hd h1 h2 hst) hF n hd' v t (pick_installed hp) .self _
      (knows_after hc hp (SameNames.refl _ _))
    dsimp only at h
    cases h4 : runFaulty W C F n hd' v t (cacheReg W t hd' s) with
    | ok r' s2 =>
      rw [h4] at h h3
      cases h
      obtain ⟨N, h5⟩ := Yields.loadWith ⟨hd', hp, h3.2⟩ none
      exact ⟨N, h5 N (Nat.le_refl _)⟩
    | err e s2 => rw [h4] at h; cases h
    | div => rw [h4] at h; cases h

/-- None is refused by no type but those that take it; in particular, a value other than None is refused by `None`. -/
theorem refused_none (hd : C.Default) {Γ : Env} {v : Val} (hv : v ≠ .none) : Refused W C Γ v (.prim .none) := by
  have hpk : pick W C (.prim .none) = .ok .noneload := pick_none hd
  have hr : ∃ s', load W C 1 v (.prim .none) { frefs := Γ.map (fun _ => []), tdRew := [] } =
      .err ((mkExc .tlValue .notNone v (.prim .none)).push ⟨v, .prim .none, none⟩) s' := by
    rw [load_eq (Coh.new _ _), hpk]
    simp only [run, step, noneload, if_neg hv]
    exact ⟨_, rfl⟩
  obtain ⟨s', hr⟩ := hr
  refine ⟨_, _, s', .new (Γ.map (fun _ => [])) [], ⟨?_, ?_⟩, ⟨1, hr⟩, rfl⟩
  · unfold namesIn; cases Γ <;> simp
  · intro f f' _ _ n hu
    have : ∀ u, Uses W Γ (.prim .none) u → u = .prim .none := by intro u h; induction h <;> simp_all
    exact absurd (this _ hu) (by simp)

/-- **C62** for programs whose unions are all Optional and whose Enums have one annotation at most (they hardly ever have any): nothing is asked of the data. -/
theorem C62_optional (hd : C.Default) (h1 : W.NotRequiredLaw) (h2 : W.SteadyTags) {s : LState} (hs : Reachable W C s) {v : Val} {t : Ty}
    (hst : Steady W C (namesIn W s t) v t) (hbt : .none ∈ C.basictypes)
    (hu : ∀ ts, Uses W (namesIn W s t) t (.union ts) → ∃ u, ts = [u, .prim .none] ∨ ts = [.prim .none, u])
    (he : ∀ e, Uses W (namesIn W s t) t (.enum e) → (W.enm e).hints.length ≤ 1) (F : Faults)
    (hF : ∀ n h x u s', F n h x u s' ≠ some .stopIteration) {n : Nat} {r : Val} {s' : LState} (h : loadFaulty W C F n v t s = .ok r s') :
    ∃ s1, Loads W C s v t r s1 := by
  refine C62_no_wrong_value_partial hd h1 h2 hs hst ⟨fun x ts hx hsc => ?_, fun x e hx => Or.inr (he e hx.uses)⟩ F hF h
  obtain ⟨u, rfl | rfl⟩ := hu ts hx.uses
  all_goals
    have hx0 : x ≠ .none := by
      rintro rfl
      exact hsc ⟨by simpa [Config.isBasic, typeOf] using hbt, by simp [typeOf]⟩
    simp [refused_none hd hx0]

/-- A call of `load(v, t)` on a loader in state `s` did not complete and left it in state `s'`: it was interrupted between two of its accesses to the loader
(KeyboardInterrupt, a generator or a thread that is never resumed), or some of its calls failed (`Faults`). -/
def Abandoned (W : World) (C : Config) (s : LState) (v : Val) (t : Ty) (s' : LState) : Prop :=
  (∃ n c, (Conf.start W C s [⟨v, t, n⟩]).Steps c ∧ c.state = s') ∨
  ∃ F n, (∃ r, loadFaulty W C F n v t s = .ok r s') ∨ ∃ e, loadFaulty W C F n v t s = .err e s'

/-- **C63** A loader whose loads are abandoned at any point remains usable: it gives the results, and raises the exceptions, that it gave before.
Asked for: the conditions of C06. -/
theorem C63_abandoned (hd : C.Default) (h1 : W.NotRequiredLaw) (h2 : W.SteadyTags) {s s' : LState} (hs : Reachable W C s) {v0 : Val} {t0 : Ty}
    (ha : Abandoned W C s v0 t0 s') {v : Val} {t : Ty} (hn : SameNames W (namesIn W s t) (namesIn W s' t) t) (hst : Steady W C (namesIn W s t) v t) :
    (∀ r, (∃ s1, Loads W C s v t r s1) ↔ ∃ s1, Loads W C s' v t r s1) ∧
    (∀ e, (∃ s1, Raises W C s v t e s1) ↔ ∃ s1, Raises W C s' v t e s1) ∧
    (Diverges W C s v t ↔ Diverges W C s' v t) := by
  refine C06_history_partial hd h1 h2 hs ?_ hn hst
  rcases ha with ⟨n, c, hc, rfl⟩ | ⟨F, n, h⟩
  · exact hs.shared _ ⟨rfl, rfl, rfl, rfl, rfl⟩ hc
  · exact hs.faulted F n ⟨rfl, rfl, rfl, rfl, rfl⟩ h

/-! ## Non-vacuity and counterexamples -/

/-- A node fails to load for lack of stack; the loader then loads nodes as before. -/
example (v : Val) : ∃ e s1, loadFaulty Sample.W Sample.C (stackLimit .runtime) 4
      (.dict [(.str "v", .int 1), (.str "next", .dict [(.str "v", .int 2), (.str "next", .none)])]) (.obj 7) (fresh []) = .err e s1 ∧
    ∀ r', (∃ s2, Loads Sample.W Sample.C (fresh []) v (.obj 7) r' s2) ↔ ∃ s2, Loads Sample.W Sample.C s1 v (.obj 7) r' s2 := by
  have hl : ∃ e s1, loadFaulty Sample.W Sample.C (stackLimit .runtime) 4
      (.dict [(.str "v", .int 1), (.str "next", .dict [(.str "v", .int 2), (.str "next", .none)])]) (.obj 7) (fresh []) = .err e s1 ∧
      s1.frefs = some [("Node", .obj 7)] := ⟨_, _, rfl, rfl⟩
  obtain ⟨e, s1, hl, hfr⟩ := hl
  refine ⟨e, s1, hl, ?_⟩
  refine (C63_abandoned (show Sample.C.Default from rfl) Sample.notRequiredLaw Sample.steadyTags (s := fresh []) (.new (some []) [])
    (Or.inr ⟨_, _, Or.inr ⟨_, hl⟩⟩) ?_ ?_).1
  · refine ⟨by simp [namesIn, fresh, hfr], fun f f' h h' n hu => ?_⟩
    have := Sample.uses_node rfl hu
    simp at this
    subst this
    simp only [namesIn, hfr, Option.some.injEq] at h'
    cases h; cases h'
    rfl
  · have hdict : ∀ k w, ¬ Uses Sample.W (namesIn Sample.W (fresh []) (.obj 7)) (.obj 7) (.dict k w) := fun k w h => by simpa using Sample.uses_node rfl h
    refine ⟨fun f n hf h hn => ?_, fun k w h => absurd h (hdict k w), fun k w h => absurd h (hdict k w),
      fun _ _ _ h => absurd h.uses (hdict _ _), fun _ _ _ h => absurd h.uses (hdict _ _)⟩
    have := Sample.uses_node rfl h
    simp at this
    subst this
    cases hf
    exact absurd hn (by decide)


/-- A node loaded with little stack left: either the node, or an exception. -/
example (v : Val) (n : Nat) (r : Val) (s' : LState) (h : loadFaulty Sample.W Sample.C (stackLimit .runtime) n v (.obj 7) (fresh []) = .ok r s') :
    ∃ s1, Loads Sample.W Sample.C (fresh []) v (.obj 7) r s1 := by
  have hdict : ∀ k w, ¬ Uses Sample.W (namesIn Sample.W (fresh []) (.obj 7)) (.obj 7) (.dict k w) := fun k w h => by simpa using Sample.uses_node rfl h
  refine C62_optional (show Sample.C.Default from rfl) Sample.notRequiredLaw Sample.steadyTags (.new (some []) [])
    ⟨fun f n hf h hn => ?_, fun k w h => absurd h (hdict k w), fun k w h => absurd h (hdict k w),
      fun _ _ _ h => absurd h.uses (hdict _ _), fun _ _ _ h => absurd h.uses (hdict _ _)⟩ (by decide) ?_ ?_ _ ?_ h
  · have := Sample.uses_node rfl h
    simp at this
    subst this
    cases hf
    exact absurd hn (by decide)
  · intro ts h
    have := Sample.uses_node rfl h
    simp at this
    subst this
    exact ⟨_, Or.inl rfl⟩
  · intro e h
    exact absurd (Sample.uses_node rfl h) (by simp)
  · intro n h x u s'
    unfold stackLimit
    split <;> simp

/-- With little stack a node of two levels does not load, ... -/
example : (loadFaulty Sample.W Sample.C (stackLimit .runtime) 4
    (.dict [(.str "v", .int 1), (.str "next", .dict [(.str "v", .int 2), (.str "next", .none)])]) (.obj 7) (fresh [])).val? = none := by decide
/-- ... with more it does. -/
example : (loadFaulty Sample.W Sample.C (stackLimit .runtime) 9
    (.dict [(.str "v", .int 1), (.str "next", .dict [(.str "v", .int 2), (.str "next", .none)])]) (.obj 7) (fresh [])).val? =
    some (.inst 7 [("v", .int 1), ("next", .inst 7 [("v", .int 2), ("next", .none)])]) := by decide

/-- **C62** is false of unions whose members may all accept: `load([[1]], Union[Tuple[Tuple[int, ...], ...], Any])` is `((1,),)`, and `[[1]]` when the stack ends two
calls below the union: the handler of tuples turns the RecursionError into a TypedloadTypeError, which the union takes for a refusal. -/
theorem C62_counterexample : ∃ r r' s1 s2, Loads Sample.W Sample.C (fresh []) (.list [.list [.int 1]]) (.union [.coll .tuple (.coll .tuple (.prim .int)), .any]) r s1 ∧
    loadFaulty Sample.W Sample.C (stackLimit .runtime) 3 (.list [.list [.int 1]]) (.union [.coll .tuple (.coll .tuple (.prim .int)), .any]) (fresh []) = .ok r' s2 ∧
    r = .tuple [.tuple [.int 1]] ∧ r' = .list [.list [.int 1]] :=
  ⟨_, _, _, _, ⟨9, rfl⟩, rfl, rfl, rfl⟩

/-- `class E(Enum): A = 5; B = Path("5"); x: M; y: Path` with `N = NewType("N", int); M = NewType("M", N)`. -/
def Sample.faultW : World :=
  { Sample.W with enm := fun _ => { name := "E", members := [("A", .int 5), ("B", .strobj "Path" "5")], hints := [.newtype "M" (.newtype "N" (.prim .int)), .strcons "Path"] } }

/-- **C62** is false of an Enum with two annotations: `load("5", E)` is `E.A`, and `E.B` when the stack ends two calls below the handler of the Enum, which takes any
exception for a refusal. -/
theorem C62_enum_counterexample : ∃ r r' s1 s2, Loads Sample.faultW Sample.C (fresh []) (.str "5") (.enum 0) r s1 ∧
    loadFaulty Sample.faultW Sample.C (stackLimit .runtime) 3 (.str "5") (.enum 0) (fresh []) = .ok r' s2 ∧
    r = .enumv 0 "A" ∧ r' = .enumv 0 "B" :=
  ⟨_, _, _, _, ⟨9, rfl⟩, rfl, rfl, rfl⟩

end TL
