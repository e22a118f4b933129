import Verif.Props.Stock
import Verif.Props.LocalDump
import Verif.Props.Dumping
import Verif.Props.Dumpable
/-!
# Dump handlers added by the user for other values

What was proved for dumpers with the default list of handlers holds for a dumper with handlers added by the user, when the values it met since it was
made are served as usual.
-/

namespace TL

variable {W : World} {D : DConfig}

/-- The same dumper with the list of handlers of a new one. -/
def DConfig.stock (D : DConfig) : DConfig := { D with handlers := defaultDHandlers }

/-- The user changed nothing for the values met while dumping `v`: they are served by the handlers (or by none) that the default list gives them; and
no handler of the user is the first of the list, or no annotation met announces elements of a basic type (finding 39). -/
def DConfig.Usual (D : DConfig) (W : World) (v : Val) (t : Ty) : Prop :=
  (∀ x u, DMeets W D v t x u → dPick W D x = dPick W D.stock x) ∧
  (D.handlers.head?.map (·.2) = defaultDHandlers.head?.map (·.2) ∨ NoBasicElements W D v t)

/-- The states of a dumper that was used only with values for which the user changed nothing. -/
inductive UsualDumps (W : World) (D : DConfig) : DState → Prop
  | new : UsualDumps W D {}
  | dumped {s s' v t r} : UsualDumps W D s → D.Usual W v t → Legal W v → Dumps W D s v t r s' → UsualDumps W D s'
  | raised {s s' v t e} : UsualDumps W D s → D.Usual W v t → Legal W v → DumpRaises W D s v t e s' → UsualDumps W D s'

theorem UsualDumps.after {s : DState} (h : UsualDumps W D s) : AfterDumps W D s := by
  induction h with
  | new => exact .new
  | dumped _ _ _ h ih => exact ih.ok h
  | raised _ _ _ h ih => exact ih.err h

/-- One call does exactly what it would do with the default list of handlers. -/
theorem dump_stock {s : DState} (hs : AfterDumps W D s) {v : Val} {t : Ty} (hus : D.Usual W v t) (n : Nat) :
    dump W D.stock n v t s = dump W D n v t s :=
  C84_same_choice hs v t defaultDHandlers (fun x u hu => (hus.1 x u hu).symm) (hus.2.imp_left Eq.symm) n

/-- **C84** A dumper used only with values for which the user changed nothing is in a state that a dumper with the default list of handlers can be in. -/
theorem C84_stock_state {s : DState} (h : UsualDumps W D s) : DReachable W D.stock s := by
  induction h with
  | new => exact .new
  | dumped h1 hus hl h ih => obtain ⟨n, h⟩ := h; exact ih.ok hl ⟨n, (dump_stock h1.after hus n).trans h⟩
  | raised h1 hus hl h ih => obtain ⟨n, h⟩ := h; exact ih.err hl ⟨n, (dump_stock h1.after hus n).trans h⟩

/-- **C84** … and does what a dumper with the default list of handlers does: the same results, the same exceptions, the same states afterwards. -/
theorem C84_stock {s : DState} (hs : UsualDumps W D s) {v : Val} {t : Ty} (hus : D.Usual W v t) :
    (∀ r s', Dumps W D s v t r s' ↔ Dumps W D.stock s v t r s') ∧ (∀ e s', DumpRaises W D s v t e s' ↔ DumpRaises W D.stock s v t e s') := by
  have h := fun n => dump_stock hs.after hus n
  exact ⟨fun r s' => ⟨fun ⟨n, h1⟩ => ⟨n, (h n).trans h1⟩, fun ⟨n, h1⟩ => ⟨n, (h n).symm.trans h1⟩⟩,
    fun e s' => ⟨fun ⟨n, h1⟩ => ⟨n, (h n).trans h1⟩, fun ⟨n, h1⟩ => ⟨n, (h n).symm.trans h1⟩⟩⟩

/-- **C43** With handlers of the user, for other types, in the loader and in the dumper: what is dumped is loaded back. -/
theorem C43_round_trip_handlers {C : Config} {s : LState} (hs : UsualHistory W C s) {t : Ty} (hus : ∀ u, Meets W C s t u → C.Usual W u)
    {sd : DState} (hsd : UsualDumps W D sd) {v : Val} (hu1 : D.Usual W v .any) (hu2 : D.Usual W v t)
    (hu : C.uniondebugconflict = false) (hm : D.mangleKey = C.mangleKey)
    (h1 : W.NotRequiredLaw) (hnl : W.SteadyTags) (hll : W.LegalLiterals) (hdf : W.DistinctFields)
    {Γ : Env} {d r : Val} (hv : Legal W v)
    (h : Serial W C.stock D.stock Γ v t d r) (hn : SameNames W Γ (namesIn W s t) t) (hst : Steady W C.stock Γ d t) :
    (∃ sd', Dumps W D sd v .any d sd') ∧ (∃ sd', Dumps W D sd v t d sd') ∧ (∃ s', Loads W C s d t r s') ∧ Restored W v r := by
  simp only [(C84_stock hsd hu1).1, (C84_stock hsd hu2).1]
  exact C43_round_trip_user hs hus (D := D.stock) rfl hu hm h1 hnl hll hdf (C84_stock_state hsd) hv h hn hst

/-- **C42** With handlers of the user, for other types, in the loader and in the dumper, without hidedefault: the value that comes back is the original. -/
theorem C42_round_trip_handlers {C : Config} {s : LState} (hs : UsualHistory W C s) {t : Ty} (hus : ∀ u, Meets W C s t u → C.Usual W u)
    {sd : DState} (hsd : UsualDumps W D sd) {v : Val} (hu1 : D.Usual W v .any) (hu2 : D.Usual W v t)
    (hu : C.uniondebugconflict = false) (hm : D.mangleKey = C.mangleKey) (h0 : D.hidedefault = false)
    (h1 : W.NotRequiredLaw) (hnl : W.SteadyTags) (hll : W.LegalLiterals) (hdf : W.DistinctFields)
    {Γ : Env} {d r : Val} (hv : Legal W v)
    (h : Serial W C.stock D.stock Γ v t d r) (hn : SameNames W Γ (namesIn W s t) t) (hst : Steady W C.stock Γ d t) :
    (∃ sd', Dumps W D sd v .any d sd') ∧ (∃ sd', Dumps W D sd v t d sd') ∧ ∃ s', Loads W C s d t v s' := by
  simp only [(C84_stock hsd hu1).1, (C84_stock hsd hu2).1]
  exact C42_round_trip_user hs hus (D := D.stock) rfl hu hm h0 h1 hnl hll hdf (C84_stock_state hsd) hv h hn hst

section
variable {sd : DState} (hsd : UsualDumps W D sd) {v : Val} {t : Ty} (hus : D.Usual W v t)
include hsd hus

/-- **C75** With handlers of the user for other values: what is dumped is what the value is dumped as, exactly. -/
theorem C75_exact_handlers (hw : W.LegalDefaults) (hv : Legal W v) {r : Val} :
    (∃ sd', Dumps W D sd v t r sd') ↔ Dumped W D.stock v t r := by
  simp only [(C84_stock hsd hus).1]
  exact C75_exact (C := D.stock) rfl hw (C84_stock_state hsd) hv

/-- **C75** … and it raises exactly when nothing is what the value is dumped as. -/
theorem C75_refused_handlers (hw : W.LegalDefaults) (hg : W.GroundedEnums) (hv : Legal W v) :
    (∃ e sd', DumpRaises W D sd v t e sd') ↔ ∀ r, ¬ Dumped W D.stock v t r := by
  simp only [(C84_stock hsd hus).2]
  exact C75_refused (C := D.stock) rfl hw hg (C84_stock_state hsd) hv

/-- **C41** With handlers of the user for other values: what the dumper did before does not matter. -/
theorem C41_history_handlers {sd' : DState} (hsd' : UsualDumps W D sd') (hv : Legal W v) :
    (∀ r, (∃ s1, Dumps W D sd v t r s1) ↔ ∃ s1, Dumps W D sd' v t r s1) ∧
    (∀ e, (∃ s1, DumpRaises W D sd v t e s1) ↔ ∃ s1, DumpRaises W D sd' v t e s1) := by
  simp only [(C84_stock hsd hus).1, (C84_stock hsd hus).2, (C84_stock hsd' hus).1, (C84_stock hsd' hus).2]
  exact C41_history (C := D.stock) rfl (C84_stock_state hsd) (C84_stock_state hsd') hv t

/-- **C51** With handlers of the user for other values: a dump ends. -/
theorem C51_ends_handlers (hg : W.GroundedEnums) (hv : Legal W v) :
    (∃ r s', Dumps W D sd v t r s') ∨ ∃ e s', DumpRaises W D sd v t e s' := by
  simp only [(C84_stock hsd hus).1, (C84_stock hsd hus).2]
  exact C51_ends (D := D.stock) rfl hg (C84_stock_state hsd) hv t

/-- **C51** With handlers of the user for other values: a value without undumpable parts is dumped. -/
theorem C51_dumps_handlers (hg : W.GroundedEnums) (hv : Legal W v) (h1 : ∀ x, Inside W v x → ¬ Undumpable D.stock x)
    (h2 : D.isodates = true ∨ ∀ x, Inside W v x → tzOf x = none)
    (h3 : ∀ kvs, Inside W v (.dict kvs) → ∀ p ∈ kvs, ∀ d s', Dumps W D.stock {} p.1 .any d s' → W.hash d = true) :
    ∃ r s', Dumps W D sd v t r s' := by
  simp only [(C84_stock hsd hus).1]
  exact C51_dumps (D := D.stock) rfl hg (C84_stock_state hsd) hv h1 h2 h3 t

/-- **C40** With handlers of the user for other values: plain data is dumped as itself. -/
theorem C40_identity_handlers (h : Plain (· ∈ D.basictypes) v) (r : Val) : (∃ s', Dumps W D sd v t r s') ↔ r = v := by
  simp only [(C84_stock hsd hus).1]
  exact C40_identity (C := D.stock) rfl (C84_stock_state hsd) h t r

end

/-- **C38** With handlers of the user for other values: what is dumped is plain data. -/
theorem C38_plain_handlers {sd sd' : DState} (hsd : UsualDumps W D sd) {v r : Val} (hus : D.Usual W v .any) (hv : Legal W v) (ht : Truthful W D.stock v)
    (hpat : ∀ p, Inside W v (.pattern p) → typeOf p = .prim .str ∨ .bytes ∈ D.basictypes) (h : Dumps W D sd v .any r sd') : Plain (DumpPrim D.stock) r :=
  C38_plain (C := D.stock) rfl (C84_stock_state hsd) hv ht hpat (((C84_stock hsd hus).1 r sd').1 h)

/-! ## The hypotheses are met -/

/-- The program `Sample.WB`, with a dump handler for objects of the class `Tree`. -/
def Sample.WBD : World := { Sample.WB with dumpCond := fun _ v => .ok (typeOf v == .strcons "Tree"), dumpCustom := fun _ _ _ => .ret (.str "T") }
/-- The dumper with that handler, after the first of the list (`d.handlers.insert(1, …)`). -/
def Sample.DBD : DConfig := { hidedefault := false, handlers := match defaultDHandlers with | h :: hs => h :: (.custom 1, .custom 1) :: hs | [] => [] }

theorem Sample.dmeets_ints {l : List Int} {t x u} (h : DMeets Sample.WBD Sample.DBD (.list (l.map .int)) t x u) : x = .list (l.map .int) ∨ ∃ i, x = .int i := by
  induction h with
  | self => exact Or.inl rfl
  | item _ hx ih =>
    rcases ih with ih | ⟨i, ih⟩
    · cases ih; obtain ⟨i, _, rfl⟩ := List.mem_map.1 hx; exact Or.inr ⟨i, rfl⟩
    · cases ih
  | custom _ _ ha _ => cases ha
  | _ => rename_i ih; rcases ih with ih | ⟨i, ih⟩ <;> cases ih

theorem Sample.dusual_ints (l : List Int) (t : Ty) : Sample.DBD.Usual Sample.WBD (.list (l.map .int)) t := by
  refine ⟨fun x u h => ?_, Or.inl rfl⟩
  rcases Sample.dmeets_ints h with rfl | ⟨i, rfl⟩ <;> rfl

theorem Sample.meets_ints' {u : Ty} (h : Meets Sample.WBD Sample.CB (fresh []) (.coll .list (.prim .int)) u) : u = .coll .list (.prim .int) ∨ u = .prim .int := by
  induction h with
  | known h => obtain ⟨fr, h1, h2⟩ := h; simp [fresh] at h1; subst h1; cases h2
  | @custom i x u y w hi _ ha ih =>
    have ha : (Sample.callback x u).Asks y w := ha
    rcases ih with rfl | rfl <;> cases ha
  | _ => simp_all

/-- Lists of integers, of any length, come back, although the loader and the dumper have handlers of the user, and the dumper was used. -/
example (l m : List Int) : ∃ sd, UsualDumps Sample.WBD Sample.DBD sd ∧ ∃ d s', (∃ sd', Dumps Sample.WBD Sample.DBD sd (.list (l.map .int)) .any d sd') ∧
    Loads Sample.WBD Sample.CB (fresh []) d (.coll .list (.prim .int)) (.list (l.map .int)) s' := by
  have hv : ∀ l : List Int, Legal Sample.WBD (.list (l.map .int)) := by
    intro l
    refine .of_parts (fun h => (by cases h)) (fun x hx => ?_)
    cases hx with
    | elem h =>
      obtain ⟨i, _, rfl⟩ := List.mem_map.1 h
      exact .of_parts trivial (fun x hx => by cases hx)
  have hu : ∀ {Γ u}, Uses Sample.WBD Γ (.coll .list (.prim .int)) u → u = .coll .list (.prim .int) ∨ u = .prim .int := by
    intro Γ u h; induction h <;> simp_all
  have h : ∀ l : List Int, Serial Sample.WBD Sample.CB.stock Sample.DBD.stock (some fun _ => none) (.list (l.map .int)) (.coll .list (.prim .int)) (.list (l.map .int)) (.list (l.map .int)) := by
    intro l
    have := Serial.coll (W := Sample.WBD) (C := Sample.CB.stock) (D := Sample.DBD.stock) (Γ := some fun _ => none) (k := .list) (et := .prim .int)
      (l.map fun i => ⟨.int i, .int i, .int i⟩) ⟨_, rfl⟩ (by
        intro q hq
        obtain ⟨i, _, rfl⟩ := List.mem_map.1 hq
        exact .leaf (.basic rfl (by decide) (Or.inl (by decide)))) (by intro h; cases h)
    simpa [Function.comp_def] using this
  have hL : ∀ u, Meets Sample.WBD Sample.CB (fresh []) (.coll .list (.prim .int)) u → Sample.CB.Usual Sample.WBD u :=
    fun u hu => by rcases Sample.meets_ints' hu with rfl | rfl <;> rfl
  have key : ∀ {sd}, UsualDumps Sample.WBD Sample.DBD sd → ∀ l : List Int, _ := fun hsd l =>
    C42_round_trip_handlers (C := Sample.CB) (D := Sample.DBD) (.new (some []) []) hL hsd (Sample.dusual_ints l _) (Sample.dusual_ints l _) rfl rfl rfl
    (W := Sample.WBD) Sample.notRequiredLaw ⟨Sample.noHiddenLiteral, fun _ _ h => .inl h⟩ Sample.legalLiterals Sample.distinctFields (hv l) (h l)
    ⟨by simp [namesIn], fun _ _ _ _ n h => absurd (hu h) (by simp)⟩
    ⟨fun _ _ _ h => absurd (hu h) (by simp), fun _ _ h => absurd (hu h) (by simp), fun _ _ h => absurd (hu h) (by simp),
      fun _ _ _ h => absurd (hu h.uses) (by simp), fun _ _ _ h => absurd (hu h.uses) (by simp)⟩
  obtain ⟨⟨sd, hsd⟩, _⟩ := key .new m
  have hsd := UsualDumps.new.dumped (Sample.dusual_ints m _) (hv m) hsd
  obtain ⟨a, _, s', b⟩ := key hsd l
  exact ⟨sd, hsd, _, s', a, b⟩

theorem Sample.insideWBD {v x : Val} (h : Inside Sample.WBD v x) : Inside Sample.WB v x := by
  induction h with
  | self => exact .self
  | elem _ h ih => exact .elem ih h
  | key _ h ih => exact .key ih h
  | val _ h ih => exact .val ih h
  | arg _ h ih => exact .arg ih h
  | item _ h ih => exact .item ih h
  | attr _ h ih => exact .attr ih h
  | member _ h ih => exact .member ih h
  | source _ ih => exact .source ih

theorem Sample.inside_ints {l : List Int} {x : Val} (h : Inside Sample.WBD (.list (l.map .int)) x) : x = .list (l.map .int) ∨ ∃ i, x = .int i := by
  induction h with
  | self => exact Or.inl rfl
  | elem _ hx ih =>
    rcases ih with ih | ⟨i, ih⟩
    · cases ih; obtain ⟨i, _, rfl⟩ := List.mem_map.1 hx; exact Or.inr ⟨i, rfl⟩
    · cases ih
  | source _ ih => rcases ih with ih | ⟨i, ih⟩ <;> cases ih
  | _ => rename_i ih; rcases ih with ih | ⟨i, ih⟩ <;> cases ih

/-- The list of integers is dumped, as itself, whatever else the dumper did; there is nothing else it could be dumped as. -/
example (l m : List Int) : ∃ r sd sd', Dumps Sample.WBD Sample.DBD sd (.list (l.map .int)) .any r sd' ∧ UsualDumps Sample.WBD Sample.DBD sd ∧
    r = .list (l.map .int) ∧ (∃ s', Dumps Sample.WBD Sample.DBD {} (.list (l.map .int)) .any r s') ∧ Dumped Sample.WBD Sample.DBD.stock (.list (l.map .int)) .any r ∧
    Plain (DumpPrim Sample.DBD.stock) r ∧ ¬ ∃ e s', DumpRaises Sample.WBD Sample.DBD sd (.list (l.map .int)) .any e s' := by
  have hg : Sample.WBD.GroundedEnums := fun e n x h => by
    have h1 : Grounded Sample.WB x := Sample.groundedEnumsB e n x h
    refine Subrelation.accessible (fun {a b} (hp : PartOf Sample.WBD b a) => ?_) h1
    cases hp with
    | elem h => exact .elem h
    | key h => exact .key h
    | val h => exact .val h
    | arg h => exact .arg h
    | item h => exact .item h
    | attr h => exact .attr h
    | member h => exact .member h
    | source => exact .source
  have hv : ∀ l : List Int, Legal Sample.WBD (.list (l.map .int)) := by
    intro l
    refine .of_parts (fun h => (by cases h)) (fun x hx => ?_)
    cases hx with
    | elem h =>
      obtain ⟨i, _, rfl⟩ := List.mem_map.1 h
      exact .of_parts trivial (fun x hx => by cases hx)
  have hp : ∀ l : List Int, Plain (· ∈ Sample.DBD.basictypes) (.list (l.map .int)) := fun l => .list (fun x hx => by
    obtain ⟨i, _, rfl⟩ := List.mem_map.1 hx
    exact .basic rfl (by decide))
  obtain ⟨sd, hsd⟩ := (C40_identity_handlers .new (Sample.dusual_ints m .any) (hp m) _).2 rfl
  have hu := UsualDumps.new.dumped (Sample.dusual_ints m _) (hv m) hsd
  obtain ⟨sd', h⟩ := (C40_identity_handlers hu (Sample.dusual_ints l .any) (hp l) _).2 rfl
  have hd : Sample.WBD.LegalDefaults := fun c f hf d hd x hx => Sample.makesB.defaults c f hf d hd x (Sample.insideWBD hx)
  refine ⟨_, sd, sd', h, hu, rfl, ((C41_history_handlers hu (Sample.dusual_ints l .any) .new (hv l)).1 _).1 ⟨_, h⟩,
    (C75_exact_handlers hu (Sample.dusual_ints l .any) hd (hv l)).1 ⟨_, h⟩, ?_, ?_⟩
  · refine C38_plain_handlers hu (Sample.dusual_ints l .any) (hv l) (fun c fs hi => ?_) (fun p hi => ?_) h
    · rcases Sample.inside_ints hi with h | ⟨i, h⟩ <;> cases h
    · rcases Sample.inside_ints hi with h | ⟨i, h⟩ <;> cases h
  · intro he
    exact (C75_refused_handlers hu (Sample.dusual_ints l .any) hd hg (hv l)).1 he _ ((C75_exact_handlers hu (Sample.dusual_ints l .any) hd (hv l)).1 ⟨_, h⟩)

end TL
