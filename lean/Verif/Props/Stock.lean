import Verif.Props.Local
import Verif.Props.RoundTrip
import Verif.Props.Reuse
import Verif.Props.Lax
import Verif.Props.Idempotent
import Verif.Props.Order
import Verif.Props.Conversion
import Verif.Props.Predicates
/-!
# Handlers added by the user for other types

What was proved for loaders with the default list of handlers holds for a loader with handlers added by the user, when all the types it met
since it was made are served as usual.
-/

namespace TL

variable {W : World} {C : Config}

/-- The states of a loader that was used only with types for which the user changed nothing (`Usual`): new loaders, after loads that returned or
raised, changes of `frefs`, and after classes were rewritten. -/
inductive UsualHistory (W : World) (C : Config) : LState → Prop
  | new (frefs : Option (List (String × Ty))) (rew : List Nat) : UsualHistory W C { frefs := frefs, tdRew := rew }
  | loaded {s s' v t r} : UsualHistory W C s → (∀ u, Meets W C s t u → C.Usual W u) → Loads W C s v t r s' → UsualHistory W C s'
  | raised {s s' v t e} : UsualHistory W C s → (∀ u, Meets W C s t u → C.Usual W u) → Raises W C s v t e s' → UsualHistory W C s'
  | setFrefs {s} (frefs : Option (List (String × Ty))) : UsualHistory W C s → UsualHistory W C { s with frefs := frefs }
  | rewritten {s} (c : Nat) : UsualHistory W C s → UsualHistory W C { s with tdRew := c :: s.tdRew }

theorem UsualHistory.reachable {s : LState} (h : UsualHistory W C s) : Reachable W C s := by
  induction h with
  | new frefs rew => exact .new frefs rew
  | loaded _ _ h ih => exact ih.ok h
  | raised _ _ h ih => exact ih.err h
  | setFrefs frefs _ ih => exact .setFrefs frefs ih
  | rewritten c _ ih => exact .rewritten c ih

/-- One call does exactly what it would do with the default list of handlers. -/
theorem load_stock {s : LState} (hs : Reachable W C s) {t : Ty} (hus : ∀ u, Meets W C s t u → C.Usual W u) (n : Nat) (v : Val) :
    load W C.stock n v t s = load W C n v t s :=
  C83_same_choice hs t defaultHandlers (fun u hu => (hus u hu).symm) n v

/-- **C83** A loader used only with types for which the user changed nothing is in a state that a loader with the default list of handlers can be in. -/
theorem C83_stock_state {s : LState} (h : UsualHistory W C s) : Reachable W C.stock s := by
  induction h with
  | new frefs rew => exact .new frefs rew
  | loaded h1 hus h ih => obtain ⟨n, h⟩ := h; exact ih.ok ⟨n, (load_stock h1.reachable hus n _).trans h⟩
  | raised h1 hus h ih => obtain ⟨n, h⟩ := h; exact ih.err ⟨n, (load_stock h1.reachable hus n _).trans h⟩
  | setFrefs frefs _ ih => exact .setFrefs frefs ih
  | rewritten c _ ih => exact .rewritten c ih

/-- **C83** A loader used only with types for which the user changed nothing does what a loader with the default list of handlers does: the same results,
the same exceptions, the same states afterwards, and it runs forever on the same data. -/
theorem C83_stock {s : LState} (hs : UsualHistory W C s) {t : Ty} (hus : ∀ u, Meets W C s t u → C.Usual W u) (v : Val) :
    (∀ r s', Loads W C s v t r s' ↔ Loads W C.stock s v t r s') ∧ (∀ e s', Raises W C s v t e s' ↔ Raises W C.stock s v t e s') ∧
    (Diverges W C s v t ↔ Diverges W C.stock s v t) := by
  have h := fun n => load_stock hs.reachable hus n v
  refine ⟨fun r s' => ?_, fun e s' => ?_, ?_⟩
  · exact ⟨fun ⟨n, h1⟩ => ⟨n, (h n).trans h1⟩, fun ⟨n, h1⟩ => ⟨n, (h n).symm.trans h1⟩⟩
  · exact ⟨fun ⟨n, h1⟩ => ⟨n, (h n).trans h1⟩, fun ⟨n, h1⟩ => ⟨n, (h n).symm.trans h1⟩⟩
  · exact ⟨fun hd n => (h n).trans (hd n), fun hd n => (h n).symm.trans (hd n)⟩

section
variable {s s' : LState} (hs : UsualHistory W C s) {t : Ty} (hus : ∀ u, Meets W C s t u → C.Usual W u)
include hs hus

/-- **C43** With handlers of the user for other types: what is dumped is loaded back, with hidedefault or without it. -/
theorem C43_round_trip_user {D : DConfig} (hdd : D.Default) (hu : C.uniondebugconflict = false) (hm : D.mangleKey = C.mangleKey)
    (h1 : W.NotRequiredLaw) (hnl : W.SteadyTags) (hll : W.LegalLiterals) (hdf : W.DistinctFields)
    {sd : DState} (hsd : DReachable W D sd) {Γ : Env} {v : Val} {d r : Val} (hv : Legal W v)
    (h : Serial W C.stock D Γ v t d r) (hn : SameNames W Γ (namesIn W s t) t) (hst : Steady W C.stock Γ d t) :
    (∃ sd', Dumps W D sd v .any d sd') ∧ (∃ sd', Dumps W D sd v t d sd') ∧ (∃ s', Loads W C s d t r s') ∧ Restored W v r := by
  obtain ⟨a1, _, _⟩ := C83_stock hs hus d
  simp only [a1]
  exact C43_round_trip Config.stock_default hdd hu hm h1 hnl hll hdf hsd (C83_stock_state hs) hv h hn hst

/-- **C42** With handlers of the user for other types, without hidedefault: the value that comes back is the original. -/
theorem C42_round_trip_user {D : DConfig} (hdd : D.Default) (hu : C.uniondebugconflict = false) (hm : D.mangleKey = C.mangleKey)
    (h0 : D.hidedefault = false) (h1 : W.NotRequiredLaw) (hnl : W.SteadyTags) (hll : W.LegalLiterals) (hdf : W.DistinctFields)
    {sd : DState} (hsd : DReachable W D sd) {Γ : Env} {v : Val} {d r : Val} (hv : Legal W v)
    (h : Serial W C.stock D Γ v t d r) (hn : SameNames W Γ (namesIn W s t) t) (hst : Steady W C.stock Γ d t) :
    (∃ sd', Dumps W D sd v .any d sd') ∧ (∃ sd', Dumps W D sd v t d sd') ∧ ∃ s', Loads W C s d t v s' := by
  obtain ⟨a1, _, _⟩ := C83_stock hs hus d
  simp only [a1]
  exact C42_round_trip Config.stock_default hdd hu hm h0 h1 hnl hll hdf hsd (C83_stock_state hs) hv h hn hst

/-- **C49** (partial), with handlers of the user for other types: loading plain data twice is the same as once. -/
theorem C49_idempotent_user_partial (hs' : UsualHistory W C s') (hus' : ∀ u, Meets W C s' t u → C.Usual W u) (h1 : W.NotRequiredLaw) (h2 : W.SteadyTags)
    (hl : W.Lawful) (hu : C.uniondebugconflict = false) {s1 : LState} {v : Val} {r : Val}
    (hn : SameNames W (namesIn W s t) (namesIn W s' t) t) (hst : Steady W C.stock (namesIn W s t) v t)
    (hp : ∀ u, Part (namesIn W s t) t u → PlainData C.stock u) (h : Loads W C s v t r s1) : ∃ s2, Loads W C s' r t r s2 := by
  obtain ⟨a1, _, _⟩ := C83_stock hs hus v
  obtain ⟨b1, _, _⟩ := C83_stock hs' hus' r
  simp only [b1]
  exact C49_idempotent_partial Config.stock_default h1 h2 hl hu (C83_stock_state hs) (C83_stock_state hs') hn hst hp ((a1 _ _).1 h)

end

section
variable {s s' : LState} (hs : UsualHistory W C s) {t : Ty} (hus : ∀ u, Meets W C s t u → C.Usual W u)
include hs hus

/-- **C24** (partial), with handlers of the user for other types. -/
theorem C24_user_partial (hs' : UsualHistory W { C with basiccast := true } s')
    (hus' : ∀ u, Meets W { C with basiccast := true } s' t u → Config.Usual { C with basiccast := true } W u) (h1 : W.NotRequiredLaw) (h2 : W.SteadyTags) {v : Val}
    (hn : SameNames W (namesIn W s t) (namesIn W s' t) t) (hst : Steady W C.stock (namesIn W s t) v t) (hu : UnionFree W (namesIn W s t) t) {r : Val} {s1 : LState}
    (h : Loads W C s v t r s1) : ∃ s2, Loads W { C with basiccast := true } s' v t r s2 := by
  obtain ⟨a1, _, _⟩ := C83_stock hs hus v
  obtain ⟨b1, _, _⟩ := C83_stock hs' hus' v
  simp only [b1]
  exact C24_partial Config.stock_default h1 h2 (C83_stock_state hs) (C83_stock_state hs') hn hst hu ((a1 _ _).1 h)

/-- **C25** (partial), with handlers of the user for other types. -/
theorem C25_user_partial (hs' : UsualHistory W { C with failonextra := false } s')
    (hus' : ∀ u, Meets W { C with failonextra := false } s' t u → Config.Usual { C with failonextra := false } W u) (h1 : W.NotRequiredLaw) (h2 : W.SteadyTags) {v : Val}
    (hn : SameNames W (namesIn W s t) (namesIn W s' t) t) (hst : Steady W C.stock (namesIn W s t) v t) (hu : UnionFree W (namesIn W s t) t) {r : Val} {s1 : LState}
    (h : Loads W C s v t r s1) : ∃ s2, Loads W { C with failonextra := false } s' v t r s2 := by
  obtain ⟨a1, _, _⟩ := C83_stock hs hus v
  obtain ⟨b1, _, _⟩ := C83_stock hs' hus' v
  simp only [b1]
  exact C25_partial Config.stock_default h1 h2 (C83_stock_state hs) (C83_stock_state hs') hn hst hu ((a1 _ _).1 h)
end

/-! ## The hypotheses are met -/

theorem Sample.wb_notRequiredLaw : Sample.WB.NotRequiredLaw := Sample.notRequiredLaw
theorem Sample.wb_steadyTags : Sample.WB.SteadyTags := ⟨Sample.noHiddenLiteral, fun _ _ h => .inl h⟩

theorem Sample.meets_ints {C : Config} {u : Ty} (h : Meets Sample.WB C (fresh []) (.coll .list (.prim .int)) u) : u = .coll .list (.prim .int) ∨ u = .prim .int := by
  induction h with
  | known h => obtain ⟨fr, h1, h2⟩ := h; simp [fresh] at h1; subst h1; cases h2
  | @custom i x u y w hi _ ha ih =>
    have ha : (Sample.callback x u).Asks y w := ha
    rcases ih with rfl | rfl <;> cases ha
  | _ => simp_all

theorem Sample.uses_ints {Γ : Env} {u : Ty} (h : Uses Sample.WB Γ (.coll .list (.prim .int)) u) : u = .coll .list (.prim .int) ∨ u = .prim .int := by
  induction h <;> simp_all

theorem Sample.usual_ints (b f : Bool) (u : Ty) (hu : Meets Sample.WB { Sample.CB with basiccast := b, failonextra := f } (fresh []) (.coll .list (.prim .int)) u) :
    Config.Usual { Sample.CB with basiccast := b, failonextra := f } Sample.WB u := by
  rcases Sample.meets_ints hu with rfl | rfl <;> rfl

theorem Sample.steady_ints (C : Config) (v : Val) : Steady Sample.WB C (namesIn Sample.WB (fresh []) (.coll .list (.prim .int))) v (.coll .list (.prim .int)) :=
  ⟨fun _ _ _ hu => absurd (Sample.uses_ints hu) (by simp), fun _ _ hu => absurd (Sample.uses_ints hu) (by simp),
    fun _ _ hu => absurd (Sample.uses_ints hu) (by simp), fun _ _ _ hu => absurd (Sample.uses_ints hu.uses) (by simp),
    fun _ _ _ hu => absurd (Sample.uses_ints hu.uses) (by simp)⟩

/-- A loader with a handler of the user has loaded a list of integers: it could have been one with the default list of handlers. -/
example : ∃ r s, Loads Sample.WB Sample.CB (fresh []) (.list [.str "5", .int 6]) (.coll .list (.prim .int)) r s ∧ UsualHistory Sample.WB Sample.CB s ∧
    Reachable Sample.WB Sample.CB.stock s ∧ Loads Sample.WB Sample.CB.stock (fresh []) (.list [.str "5", .int 6]) (.coll .list (.prim .int)) r s := by
  have h : ∃ r s, Loads Sample.WB Sample.CB (fresh []) (.list [.str "5", .int 6]) (.coll .list (.prim .int)) r s := ⟨_, _, 9, rfl⟩
  obtain ⟨r, s, h⟩ := h
  have hs : UsualHistory Sample.WB Sample.CB s := .loaded (.new _ _) (Sample.usual_ints _ _) h
  exact ⟨r, s, h, hs, C83_stock_state hs, ((C83_stock (.new (some []) []) (Sample.usual_ints _ _) _).1 r s).1 h⟩

/-- Lists of integers, of any length, come back, although the loader has a handler of the user. -/
example (l : List Int) : ∃ d s', (∃ sd', Dumps Sample.WB { hidedefault := false } {} (.list (l.map .int)) .any d sd') ∧
    Loads Sample.WB Sample.CB (fresh []) d (.coll .list (.prim .int)) (.seq .list (l.map .int)) s' := by
  have hv : Legal Sample.WB (.list (l.map .int)) := by
    refine .of_parts (fun h => (by cases h)) (fun x hx => ?_)
    cases hx with
    | elem h =>
      obtain ⟨i, _, rfl⟩ := List.mem_map.1 h
      exact .of_parts trivial (fun x hx => by cases hx)
  have h : Serial Sample.WB Sample.CB.stock { hidedefault := false } (some fun _ => none) (.seq .list (l.map .int)) (.coll .list (.prim .int)) (.list (l.map .int)) (.seq .list (l.map .int)) := by
    have := Serial.coll (W := Sample.WB) (C := Sample.CB.stock) (D := { hidedefault := false }) (Γ := some fun _ => none) (k := .list) (et := .prim .int)
      (l.map fun i => ⟨.int i, .int i, .int i⟩) ⟨_, rfl⟩ (by
        intro q hq
        obtain ⟨i, _, rfl⟩ := List.mem_map.1 hq
        exact .leaf (.basic rfl (by decide) (Or.inl (by decide)))) (by intro h; cases h)
    simpa [Function.comp_def] using this
  obtain ⟨a, _, s', b⟩ := C42_round_trip_user (C := Sample.CB) (D := { hidedefault := false }) (.new (some []) []) (Sample.usual_ints _ _) rfl rfl rfl rfl
    Sample.wb_notRequiredLaw Sample.wb_steadyTags Sample.legalLiterals Sample.distinctFields .new hv h
    ⟨by simp [namesIn], fun _ _ _ _ n hu => absurd (Sample.uses_ints hu) (by simp)⟩
    ⟨fun _ _ _ hu => absurd (Sample.uses_ints hu) (by simp), fun _ _ hu => absurd (Sample.uses_ints hu) (by simp),
      fun _ _ hu => absurd (Sample.uses_ints hu) (by simp), fun _ _ _ hu => absurd (Sample.uses_ints hu.uses) (by simp),
      fun _ _ _ hu => absurd (Sample.uses_ints hu.uses) (by simp)⟩
  exact ⟨_, s', a, b⟩

/-- What was loaded without casts and failing on unknown keys is loaded again, and is loaded with casts, and without failing on unknown keys. -/
example (v r : Val) (s1 : LState) (h : Loads Sample.WB { Sample.CB with basiccast := false, failonextra := true } (fresh []) v (.coll .list (.prim .int)) r s1) :
    (∃ s2, Loads Sample.WB { Sample.CB with basiccast := false, failonextra := true } (fresh []) r (.coll .list (.prim .int)) r s2) ∧
    (∃ s2, Loads Sample.WB { Sample.CB with basiccast := false, failonextra := false } (fresh []) v (.coll .list (.prim .int)) r s2) ∧
    ∃ s2, Loads Sample.WB { Sample.CB with basiccast := true, failonextra := true } (fresh []) v (.coll .list (.prim .int)) r s2 := by
  have hn : SameNames Sample.WB (namesIn Sample.WB (fresh []) (.coll .list (.prim .int))) (namesIn Sample.WB (fresh []) (.coll .list (.prim .int))) (.coll .list (.prim .int)) :=
    ⟨Iff.rfl, fun _ _ _ _ n hu => absurd (Sample.uses_ints hu) (by simp)⟩
  have hu : UnionFree Sample.WB (namesIn Sample.WB (fresh []) (.coll .list (.prim .int))) (.coll .list (.prim .int)) :=
    ⟨fun ts hu => absurd (Sample.uses_ints hu) (by simp), fun e hu => absurd (Sample.uses_ints hu) (by simp)⟩
  have hp : ∀ u, Part (namesIn Sample.WB (fresh []) (.coll .list (.prim .int))) (.coll .list (.prim .int)) u → PlainData (Config.stock { Sample.CB with basiccast := false, failonextra := true }) u := by
    intro u hu
    have : u = .coll .list (.prim .int) ∨ u = .prim .int := by induction hu <;> simp_all
    rcases this with rfl | rfl <;> trivial
  exact ⟨C49_idempotent_user_partial (C := { Sample.CB with basiccast := false, failonextra := true }) (.new (some []) []) (Sample.usual_ints _ _) (.new (some []) []) (Sample.usual_ints _ _) Sample.wb_notRequiredLaw Sample.wb_steadyTags
      Sample.lawfulB rfl hn (Sample.steady_ints _ _) hp h,
    C25_user_partial (C := { Sample.CB with basiccast := false, failonextra := true }) (.new (some []) []) (Sample.usual_ints _ _) (.new (some []) []) (Sample.usual_ints _ _) Sample.wb_notRequiredLaw Sample.wb_steadyTags hn (Sample.steady_ints _ _) hu h,
    C24_user_partial (C := { Sample.CB with basiccast := false, failonextra := true }) (.new (some []) []) (Sample.usual_ints _ _) (.new (some []) []) (Sample.usual_ints _ _) Sample.wb_notRequiredLaw Sample.wb_steadyTags hn (Sample.steady_ints _ _) hu h⟩

end TL
