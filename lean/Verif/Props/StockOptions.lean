import Verif.Props.StockDump
import Verif.Props.StockEvolve
import Verif.Props.Hashing
import Verif.Props.DumpOptions
/-!
# The options of the dumper, with handlers of the user for other values
-/

namespace TL

variable {W : World} {D : DConfig}

/-- **C66** With handlers of the user for other values: hidedefault only leaves out, whatever the two dumpers did before. -/
theorem C66_leaves_out_handlers {s s' : DState} (hs : UsualDumps W { D with hidedefault := false } s) (hs' : UsualDumps W { D with hidedefault := true } s')
    {v : Val} {t : Ty} (hus : DConfig.Usual { D with hidedefault := false } W v t) (hus' : DConfig.Usual { D with hidedefault := true } W v t)
    (hv : Legal W v) (hk : DistinctKeys W D.stock v) {full : Val} {s1 : DState} (h : Dumps W { D with hidedefault := false } s v t full s1) :
    ∃ r s2, Dumps W { D with hidedefault := true } s' v t r s2 ∧ Variant W true false r full := by
  have h := ((C84_stock hs hus).1 _ _).1 h
  obtain ⟨_, h⟩ := ((C41_history (C := DConfig.stock { D with hidedefault := false }) rfl (C84_stock_state hs) .new hv t).1 _).1 ⟨_, h⟩
  obtain ⟨r, s2, h, hvar⟩ := C66_leaves_out (C := D.stock) rfl .new hv hk h
  obtain ⟨_, h⟩ := ((C41_history (C := DConfig.stock { D with hidedefault := true }) rfl .new (C84_stock_state hs') hv t).1 _).1 ⟨_, h⟩
  exact ⟨r, _, ((C84_stock hs' hus').1 _ _).2 h, hvar⟩

/-- **C67** With handlers of the user for other values: isodates only changes dates and times, whatever the two dumpers did before. -/
theorem C67_only_dates_handlers {s s' : DState} (hs : UsualDumps W { D with isodates := false } s) (hs' : UsualDumps W { D with isodates := true } s')
    {v : Val} {t : Ty} (hus : DConfig.Usual { D with isodates := false } W v t) (hus' : DConfig.Usual { D with isodates := true } W v t)
    (hv : Legal W v) {r : Val} {s1 : DState} (h : Dumps W { D with isodates := false } s v t r s1) :
    ∃ r2 s2, Dumps W { D with isodates := true } s' v t r2 s2 ∧ Variant W false true r2 r := by
  have h := ((C84_stock hs hus).1 _ _).1 h
  obtain ⟨_, h⟩ := ((C41_history (C := DConfig.stock { D with isodates := false }) rfl (C84_stock_state hs) .new hv t).1 _).1 ⟨_, h⟩
  obtain ⟨r, s2, h, hvar⟩ := C67_only_dates (C := D.stock) rfl .new hv h
  obtain ⟨_, h⟩ := ((C41_history (C := DConfig.stock { D with isodates := true }) rfl .new (C84_stock_state hs') hv t).1 _).1 ⟨_, h⟩
  exact ⟨r, _, ((C84_stock hs' hus').1 _ _).2 h, hvar⟩

/-- **C76** With handlers of the user for other values: what is dumped is well-formed. -/
theorem C76_dump_handlers (hw : W.LegalDefaults) {sd sd' : DState} (hsd : UsualDumps W D sd) {v : Val} (hv : Legal W v) {a : Ty} (hus : D.Usual W v a)
    {d : Val} (h : Dumps W D sd v a d sd') : Legal W d :=
  C76_dump (D := D.stock) rfl hw (C84_stock_state hsd) hv (((C84_stock hsd hus).1 _ _).1 h)

/-- **C76** With handlers of the user in the loader, that make only values that can exist, and handlers of the user for other values in the dumper: what was
loaded can be given to the dumper; it returns what the loaded value is dumped as, or raises when that is nothing; it never runs forever. -/
theorem C76_load_dump_handlers {C : Config} (hw : W.Makes) (hg : W.GroundedEnums)
    (hu : ∀ i x u, Installed C (.custom i) → Legal W x → (W.customLoad i x u).Makes W) {s s' : LState} (hs : Reachable W C s) {v : Val} {t : Ty} {r : Val}
    (hv : Legal W v) (h : Loads W C s v t r s') {sd : DState} (hsd : UsualDumps W D sd) (a : Ty) (hus : D.Usual W r a) :
    (∃ d sd', Dumps W D sd r a d sd' ∧ Dumped W D.stock r a d) ∨ ((∃ e sd', DumpRaises W D sd r a e sd') ∧ ∀ d, ¬ Dumped W D.stock r a d) := by
  have hr := C76_wellformed hw hu hs hv h
  rcases C51_ends_handlers hsd hus hg hr with ⟨d, sd', h'⟩ | h'
  · exact Or.inl ⟨d, sd', h', (C75_exact_handlers hsd hus hw.defaults hr).1 ⟨sd', h'⟩⟩
  · exact Or.inr ⟨h', (C75_refused_handlers hsd hus hw.defaults hg hr).1 h'⟩

/-! ## The hypotheses are met -/

namespace Sample

/-- `d.handlers.append((f, lambda d, v, t: v))` -/
def DA (h i : Bool) : DConfig := { hidedefault := h, isodates := i, handlers := defaultDHandlers ++ [(.custom 1, .custom 1)] }

theorem dmeets_l1 {h i : Bool} {t u : Ty} {x : Val} (hm : DMeets Sample.W (DA h i) l1 t x u) :
    x ∈ [l1, .inst 0 [("x", .int 1), ("z", .str "q"), ("y", .int 5)], .date 2020 2 29, .int 1, .str "q", .int 5] := by
  induction hm with
  | self => simp
  | custom _ _ ha _ => cases ha
  | item _ hx ih => simp [l1] at ih; obtain ⟨-, rfl⟩ := ih; simp at hx; rcases hx with rfl | rfl <;> simp [p0]
  | field _ hp ih => simp [l1] at ih; obtain ⟨-, rfl⟩ := ih; simp at hp; rcases hp with rfl | rfl | rfl <;> simp
  | annotated _ hp _ _ ih => simp [l1] at ih; obtain ⟨-, rfl⟩ := ih; simp at hp; rcases hp with rfl | rfl | rfl <;> simp
  | _ => rename_i ih; simp [l1] at ih

theorem dusual_l1 (h i : Bool) (t : Ty) : (DA h i).Usual Sample.W l1 t := by
  refine ⟨fun x u hm => ?_, Or.inl rfl⟩
  have := dmeets_l1 hm
  simp only [List.mem_cons, List.not_mem_nil, or_false] at this
  rcases this with rfl | rfl | rfl | rfl | rfl | rfl <;> cases h <;> cases i <;> rfl

/-- With a handler of the user at the end of the list: an attribute equal to its default is left out, a date becomes a string, nothing else changes. -/
example : (∃ r s2, Dumps Sample.W (DA true false) {} l1 .any r s2 ∧
      Variant Sample.W true false r (.list [.dict [(.str "x", .int 1), (.str "zed", .str "q"), (.str "y", .int 5)], .list [.int 2020, .int 2, .int 29]])) ∧
    ∃ r s2, Dumps Sample.W (DA true true) {} l1 .any r s2 ∧
      Variant Sample.W false true r (.list [.dict [(.str "x", .int 1), (.str "zed", .str "q")], .list [.int 2020, .int 2, .int 29]]) := by
  have h1 : ∃ s1, Dumps Sample.W (DA false false) {} l1 .any
      (.list [.dict [(.str "x", .int 1), (.str "zed", .str "q"), (.str "y", .int 5)], .list [.int 2020, .int 2, .int 29]]) s1 := ⟨_, 5, rfl⟩
  have h2 : ∃ s1, Dumps Sample.W (DA true false) {} l1 .any
      (.list [.dict [(.str "x", .int 1), (.str "zed", .str "q")], .list [.int 2020, .int 2, .int 29]]) s1 := ⟨_, 5, rfl⟩
  obtain ⟨s1, h1⟩ := h1
  obtain ⟨s2, h2⟩ := h2
  exact ⟨C66_leaves_out_handlers (D := DA false false) .new .new (dusual_l1 _ _ _) (dusual_l1 _ _ _) l1_legal l1_keys h1,
    C67_only_dates_handlers (D := DA true false) .new .new (dusual_l1 _ _ _) (dusual_l1 _ _ _) l1_legal h2⟩

theorem makes_CA (i : Nat) (x : Val) (u : Ty) (_ : Installed CA (.custom i)) (hx : Legal Sample.W x) : (Sample.W.customLoad i x u).Makes Sample.W := by
  by_cases h : i = 0
  · subst h; trivial
  · simp only [Sample.W, h, if_false]; exact hx

/-- What is loaded as a node, with a handler of the user in the loader and in the dumper: it is dumped as well-formed data. -/
example : ∃ r s', Loads Sample.W CA (fresh []) (.dict [(.str "x", .int 1), (.str "zed", .str "q")]) (.obj 0) r s' ∧
    ∃ d sd', Dumps Sample.W (DA true false) {} r .any d sd' ∧ Dumped Sample.W (DA true false).stock r .any d ∧ Legal Sample.W d := by
  have hl : ∃ s', Loads Sample.W CA (fresh []) (.dict [(.str "x", .int 1), (.str "zed", .str "q")]) (.obj 0) p0 s' := ⟨_, 9, rfl⟩
  obtain ⟨s', hl⟩ := hl
  have hus : (DA true false).Usual Sample.W p0 .any := by
    refine ⟨fun x u hm => ?_, Or.inl rfl⟩
    have : x ∈ [p0, .int 1, .str "q", .int 5] := by
      induction hm with
      | self => simp
      | custom _ _ ha _ => cases ha
      | field _ hp ih => simp [p0] at ih; obtain ⟨-, rfl⟩ := ih; simp at hp; rcases hp with rfl | rfl | rfl <;> simp
      | annotated _ hp _ _ ih => simp [p0] at ih; obtain ⟨-, rfl⟩ := ih; simp at hp; rcases hp with rfl | rfl | rfl <;> simp
      | _ => rename_i ih; simp [p0] at ih
    simp only [List.mem_cons, List.not_mem_nil, or_false] at this
    rcases this with rfl | rfl | rfl | rfl <;> rfl
  have hv : Legal Sample.W (.dict [(.str "x", .int 1), (.str "zed", .str "q")]) := by
    refine .of_parts ?_ (fun x hx => ?_)
    · refine ⟨by unfold Distinct; decide, ?_⟩
      simp only [List.mem_cons, List.not_mem_nil, or_false]
      rintro p (rfl | rfl) <;> rfl
    · cases hx with
      | key h => simp at h; rcases h with ⟨rfl, _⟩ | ⟨rfl, _⟩ <;> exact .of_parts trivial (fun x hx => by cases hx)
      | val h => simp at h; rcases h with ⟨_, rfl⟩ | ⟨_, rfl⟩ <;> exact .of_parts trivial (fun x hx => by cases hx)
  refine ⟨p0, s', hl, ?_⟩
  rcases C76_load_dump_handlers makes groundedEnums makes_CA (.new _ _) hv hl .new .any hus with ⟨d, sd', h, hd⟩ | ⟨_, hno⟩
  · exact ⟨d, sd', h, hd, C76_dump_handlers legalDefaults .new (C76_wellformed makes makes_CA (.new _ _) hv hl) hus h⟩
  · have h : ∃ d sd', Dumps Sample.W (DA true false) {} p0 .any d sd' := ⟨_, _, 5, rfl⟩
    obtain ⟨d, sd', h⟩ := h
    exact absurd ((C75_exact_handlers .new hus legalDefaults p0_legal).1 ⟨sd', h⟩) (hno d)

end Sample
end TL
