import Verif.Lemmas.LaxRun
import Verif.Props.Lax
import Verif.Props.Faults
/-!
# C24, C25 with unions

What the permissive loader does with unions can differ from what the strict one does: a member that refused may now accept.  It cannot when the permissive
loader has no choice (`NoChoice`, defined in `Props/Faults.lean`: of any two members of a union that is met, one refuses); Optional never has one.
-/

namespace TL

variable {W : World} {C : Config}

/-- All the unions met while loading into `t` are Optional, and the Enums have one annotation at most. -/
def OptionalOnly (W : World) (Γ : Env) (t : Ty) : Prop :=
  (∀ ts, Uses W Γ t (.union ts) → ∃ u, ts = [u, .prim .none] ∨ ts = [.prim .none, u]) ∧ ∀ e, Uses W Γ t (.enum e) → (W.enm e).hints.length ≤ 1

theorem OptionalOnly.noChoice {C : Config} (hd : C.Default) (hbt : .none ∈ C.basictypes) {Γ : Env} {t : Ty} (h : OptionalOnly W Γ t) (v : Val) :
    NoChoice W C Γ v t := by
  refine ⟨fun x ts hx hsc => ?_, fun x e hx => Or.inr (h.2 e hx.uses)⟩
  obtain ⟨u, rfl | rfl⟩ := h.1 ts hx.uses
  all_goals
    have hx0 : x ≠ .none := by
      rintro rfl
      exact hsc ⟨by simpa [Config.isBasic, typeOf] using hbt, by simp [typeOf]⟩
    simp [refused_none hd hx0]

theorem Reaches.but' {Γ : Env} {v x : Val} {t u : Ty} {bc fe : Bool} (h : Reaches W C Γ v t x u) : Reaches W (C.but bc fe) Γ v t x u :=
  Reaches.but (C := C.but bc fe) (bc := C.basiccast) (fe := C.failonextra) h

/-- A successful load is the same with a configuration that converts more and rejects less, if that configuration has no choice. -/
theorem lax_loads_nochoice {bc fe : Bool} (hbc : C.basiccast = true → bc = true) (hfe : fe = true → C.failonextra = true)
    (hd : C.Default) (h1 : W.NotRequiredLaw) (h2 : W.SteadyTags) {s s' : LState} (hs : Reachable W C s)
    (hs' : Reachable W (C.but bc fe) s') {v : Val} {t : Ty} (hn : SameNames W (namesIn W s t) (namesIn W s' t) t)
    (hst : Steady W C (namesIn W s t) v t) (hnc : NoChoice W (C.but bc fe) (namesIn W s t) v t) {r : Val} {s1 : LState} (h : Loads W C s v t r s1) :
    ∃ s2, Loads W (C.but bc fe) s' v t r s2 := by
  obtain ⟨n, hr⟩ := (loads_ref hd h1 h2 hs (.refl _ _) hst r).1 ⟨s1, h⟩
  have hdec := hnc.decided (C := C.but bc fe) hd h1 h2 hst.but
  have hdec' : Decided W (C.but bc fe) (namesIn W s t) (Reaches W C (namesIn W s t) v t) :=
    ⟨fun x ts hx => hdec.union x ts hx.but', fun x e hx => hdec.enum x e hx.but'⟩
  have := Lx.load (hst.tame hd h1 h2) hd hbc hfe hdec' n v t .self
  unfold Lx at this
  rw [hr] at this
  obtain ⟨N, hN⟩ := this
  exact (loads_ref (C := C.but bc fe) hd h1 h2 hs' hn hst.but r).2 ⟨N, hN N (Nat.le_refl _)⟩

/-- **C24** with unions, when the loader with `basiccast=True` has no choice. -/
theorem C24_nochoice_partial (hd : C.Default) (h1 : W.NotRequiredLaw) (h2 : W.SteadyTags) {s s' : LState} (hs : Reachable W C s)
    (hs' : Reachable W { C with basiccast := true } s') {v : Val} {t : Ty} (hn : SameNames W (namesIn W s t) (namesIn W s' t) t)
    (hst : Steady W C (namesIn W s t) v t) (hnc : NoChoice W { C with basiccast := true } (namesIn W s t) v t) {r : Val} {s1 : LState}
    (h : Loads W C s v t r s1) : ∃ s2, Loads W { C with basiccast := true } s' v t r s2 :=
  lax_loads_nochoice (bc := true) (fe := C.failonextra) (fun _ => rfl) id hd h1 h2 hs hs' hn hst hnc h

/-- **C24** for types whose unions are all Optional: nothing is asked of the data but `Steady`. -/
theorem C24_optional_partial (hd : C.Default) (h1 : W.NotRequiredLaw) (h2 : W.SteadyTags) (hbt : .none ∈ C.basictypes) {s s' : LState} (hs : Reachable W C s)
    (hs' : Reachable W { C with basiccast := true } s') {v : Val} {t : Ty} (hn : SameNames W (namesIn W s t) (namesIn W s' t) t)
    (hst : Steady W C (namesIn W s t) v t) (ho : OptionalOnly W (namesIn W s t) t) {r : Val} {s1 : LState}
    (h : Loads W C s v t r s1) : ∃ s2, Loads W { C with basiccast := true } s' v t r s2 :=
  C24_nochoice_partial hd h1 h2 hs hs' hn hst (ho.noChoice (C := { C with basiccast := true }) hd hbt v) h

/-- **C25** with unions, when the loader with `failonextra=False` has no choice. -/
theorem C25_nochoice_partial (hd : C.Default) (h1 : W.NotRequiredLaw) (h2 : W.SteadyTags) {s s' : LState} (hs : Reachable W C s)
    (hs' : Reachable W { C with failonextra := false } s') {v : Val} {t : Ty} (hn : SameNames W (namesIn W s t) (namesIn W s' t) t)
    (hst : Steady W C (namesIn W s t) v t) (hnc : NoChoice W { C with failonextra := false } (namesIn W s t) v t) {r : Val} {s1 : LState}
    (h : Loads W C s v t r s1) : ∃ s2, Loads W { C with failonextra := false } s' v t r s2 :=
  lax_loads_nochoice (bc := C.basiccast) (fe := false) id (fun h => by cases h) hd h1 h2 hs hs' hn hst hnc h

/-- **C25** for types whose unions are all Optional: nothing is asked of the data but `Steady`. -/
theorem C25_optional_partial (hd : C.Default) (h1 : W.NotRequiredLaw) (h2 : W.SteadyTags) (hbt : .none ∈ C.basictypes) {s s' : LState} (hs : Reachable W C s)
    (hs' : Reachable W { C with failonextra := false } s') {v : Val} {t : Ty} (hn : SameNames W (namesIn W s t) (namesIn W s' t) t)
    (hst : Steady W C (namesIn W s t) v t) (ho : OptionalOnly W (namesIn W s t) t) {r : Val} {s1 : LState}
    (h : Loads W C s v t r s1) : ∃ s2, Loads W { C with failonextra := false } s' v t r s2 :=
  C25_nochoice_partial hd h1 h2 hs hs' hn hst (ho.noChoice (C := { C with failonextra := false }) hd hbt v) h

/-! ## The hypotheses are met -/

theorem Sample.node_optional : OptionalOnly Sample.W (namesIn Sample.W (fresh []) (.obj 7)) (.obj 7) := by
  refine ⟨fun ts h => ?_, fun e h => ?_⟩
  · have := Sample.uses_node rfl h
    simp at this
    exact ⟨_, Or.inl this⟩
  · have := Sample.uses_node rfl h
    simp at this

/-- Nodes, whatever the data: `class Node: v: int; next: Optional["Node"]`. -/
example (v r : Val) (s1 : LState) (h : Loads Sample.W { basiccast := false, failonextra := true } (fresh []) v (.obj 7) r s1) :
    (∃ s2, Loads Sample.W { basiccast := true, failonextra := true } (fresh []) v (.obj 7) r s2) ∧
    ∃ s2, Loads Sample.W { basiccast := false, failonextra := false } (fresh []) v (.obj 7) r s2 := by
  have hdict : ∀ k w, ¬ Uses Sample.W (namesIn Sample.W (fresh []) (.obj 7)) (.obj 7) (.dict k w) := fun k w h => by simpa using Sample.uses_node rfl h
  have hst : Steady Sample.W { basiccast := false, failonextra := true } (namesIn Sample.W (fresh []) (.obj 7)) v (.obj 7) := by
    refine ⟨fun f n hf h hn => ?_, fun k w h => absurd h (hdict k w), fun k w h => absurd h (hdict k w),
      fun _ _ _ h => absurd h.uses (hdict _ _), fun _ _ _ h => absurd h.uses (hdict _ _)⟩
    have := Sample.uses_node rfl h
    simp at this
    subst this
    cases hf
    exact absurd hn (by decide)
  exact ⟨C24_optional_partial (C := { basiccast := false, failonextra := true }) rfl Sample.notRequiredLaw Sample.steadyTags (by decide)
      (.new (some []) []) (.new (some []) []) (.refl _ _) hst Sample.node_optional h,
    C25_optional_partial (C := { basiccast := false, failonextra := true }) rfl Sample.notRequiredLaw Sample.steadyTags (by decide)
      (.new (some []) []) (.new (some []) []) (.refl _ _) hst Sample.node_optional h⟩
/-- And such loads exist. -/
example : ∃ r s1, Loads Sample.W { basiccast := false, failonextra := true } (fresh [])
    (.dict [(.str "v", .int 1), (.str "next", .dict [(.str "v", .int 2), (.str "next", .none)])]) (.obj 7) r s1 := ⟨_, _, 9, rfl⟩

/-- `Union[int, List[int]]` on `[1, 2]`. -/
theorem Sample.reaches_pair {C : Config} {Γ : Env} {x : Val} {u : Ty}
    (h : Reaches Sample.W C Γ (.list [.int 1, .int 2]) (.union [.prim .int, .coll .list (.prim .int)]) x u) :
    (x = .list [.int 1, .int 2] ∧ (u = .union [.prim .int, .coll .list (.prim .int)] ∨ u = .coll .list (.prim .int))) ∨ u = .prim .int := by
  induction h with
  | self => simp
  | elem _ h0 h1 h2 ih => simp at ih; simp [ih.2.2]
  | member _ hu ih =>
    simp at ih
    obtain ⟨rfl, rfl⟩ := ih
    simp at hu
    rcases hu with rfl | rfl <;> simp
  | _ => simp_all
/-- The union leaves no choice, even with the permissive options: `int([1, 2])` is a TypeError. -/
example (r : Val) (s1 : LState) (h : Loads Sample.W { basiccast := false } (fresh []) (.list [.int 1, .int 2]) (.union [.prim .int, .coll .list (.prim .int)]) r s1) :
    ∃ s2, Loads Sample.W { basiccast := true } (fresh []) (.list [.int 1, .int 2]) (.union [.prim .int, .coll .list (.prim .int)]) r s2 := by
  have hu : ∀ {u}, Uses Sample.W (namesIn Sample.W (fresh []) (.union [.prim .int, .coll .list (.prim .int)])) (.union [.prim .int, .coll .list (.prim .int)]) u →
      u = .union [.prim .int, .coll .list (.prim .int)] ∨ u = .prim .int ∨ u = .coll .list (.prim .int) := by
    intro u h
    induction h with
    | self => simp
    | union _ hu ih => simp at ih; subst ih; simpa using Or.inr hu
    | _ => simp_all
  refine C24_nochoice_partial (C := { basiccast := false }) rfl Sample.notRequiredLaw Sample.steadyTags (.new (some []) []) (.new (some []) []) (.refl _ _)
    ⟨fun f n _ h => absurd (hu h) (by simp), fun k w h => absurd (hu h) (by simp), fun k w h => absurd (hu h) (by simp),
      fun _ _ _ h => absurd (hu h.uses) (by simp), fun _ _ _ h => absurd (hu h.uses) (by simp)⟩ ⟨fun x ts hx _ => ?_, fun x e hx => absurd (hu hx.uses) (by simp)⟩ h
  have := Sample.reaches_pair hx
  simp at this
  obtain ⟨rfl, rfl⟩ := this
  have hr : Refused Sample.W { basiccast := true } (namesIn Sample.W (fresh []) (.union [.prim .int, .coll .list (.prim .int)])) (.list [.int 1, .int 2]) (.prim .int) := by
    refine ⟨fresh [], _, _, .new (some []) [], ⟨by simp [namesIn, fresh], fun f f' _ _ n hu => ?_⟩, ⟨1, rfl⟩, rfl⟩
    have : ∀ u, Uses Sample.W (namesIn Sample.W (fresh []) (.union [.prim .int, .coll .list (.prim .int)])) (.prim .int) u → u = .prim .int := by
      intro u h; induction h <;> simp_all
    exact absurd (this _ hu) (by simp)
  exact List.pairwise_cons.2 ⟨fun b _ => Or.inl hr, by simp⟩

end TL
