import Verif.Props.Reuse
import Verif.Props.DumpDispatch
/-!
# C58: changing the options of a loader or of a dumper that is in use
-/

namespace TL

/-- **C58** After any history, in which the options `basiccast`, `failonextra`, `dictequivalence` and `uniondebugconflict` have changed any number of times, a
loader has the outcome of any other loader with the present options (for example a new one, for which `s'` is `fresh []`), within the conditions of C06. -/
theorem C58_loader {W : World} {C C' : Config} (hd : C.Default) (h1 : W.NotRequiredLaw) (h2 : W.SteadyTags) (hcc : C.Retuned C') {s s' : LState}
    (hs : Reachable W C s) (hs' : Reachable W C' s') {v : Val} {t : Ty} (hn : SameNames W (namesIn W s t) (namesIn W s' t) t)
    (hst : Steady W C' (namesIn W s t) v t) :
    (∀ r, (∃ s1, Loads W C' s v t r s1) ↔ ∃ s1, Loads W C' s' v t r s1) ∧
    (∀ e, (∃ s1, Raises W C' s v t e s1) ↔ ∃ s1, Raises W C' s' v t e s1) ∧
    (Diverges W C' s v t ↔ Diverges W C' s' v t) :=
  C06_history_partial (show C'.handlers = _ from hcc.handlers.trans hd) h1 h2 (hs.retune hcc) hs' hn hst

/-- **C58** After any history, in which the options `hidedefault`, `isodates` and `mangle_key` have changed any number of times, a dumper has the outcome of any
other dumper with the present options.  Here the handler list may have handlers of the user whose conditions look only at the type of the value. -/
theorem C58_dumper {W : World} {C C' : DConfig} (hb : C.ByType W) (hcc : C.Retuned C') {s s' : DState} (hs : DReachable W C s) (hs' : DReachable W C' s')
    {v : Val} (hv : Legal W v) (a : Ty) :
    (∀ r, (∃ s1, Dumps W C' s v a r s1) ↔ ∃ s1, Dumps W C' s' v a r s1) ∧
    (∀ e, (∃ s1, DumpRaises W C' s v a e s1) ↔ ∃ s1, DumpRaises W C' s' v a e s1) :=
  C53_history (hcc.byType hb) (hs.retune hcc) hs' hv a

/-- C58: a loader that has loaded a `Node` without `failonextra` and is now strict. -/
example (v : Val) (b : Bool) : ∃ r s1, Loads Sample.W Sample.C (fresh []) (.dict [(.str "v", .int 1), (.str "next", .none), (.str "x", .none)]) (.obj 7) r s1 ∧
    ∀ r', (∃ s2, Loads Sample.W { failonextra := true, basiccast := b } s1 v (.obj 7) r' s2) ↔
      ∃ s2, Loads Sample.W { failonextra := true, basiccast := b } (fresh []) v (.obj 7) r' s2 := by
  have hl : ∃ r s1, Loads Sample.W Sample.C (fresh []) (.dict [(.str "v", .int 1), (.str "next", .none), (.str "x", .none)]) (.obj 7) r s1 ∧
      s1.frefs = some [("Node", .obj 7)] := ⟨_, _, ⟨9, rfl⟩, rfl⟩
  obtain ⟨r, s1, hl, hfr⟩ := hl
  refine ⟨r, s1, hl, fun r' => ?_⟩
  have hr : Reachable Sample.W Sample.C s1 := (Reachable.new (some []) []).ok hl
  have hsame : namesIn Sample.W s1 (.obj 7) = namesIn Sample.W (fresh []) (.obj 7) := by
    unfold namesIn
    simp only [hfr, fresh, Option.some.injEq]
    funext n
    by_cases hn : n = "Node"
    · subst hn; rfl
    · simp [aget, Sample.W, Sample.cls, Sample.clsNode, Ne.symm hn]
  have hu : ∀ {u}, Uses Sample.W (namesIn Sample.W s1 (.obj 7)) (.obj 7) u → _ := fun {u} h => Sample.uses_node rfl (by rw [hsame] at h; exact h)
  have hdict : ∀ k w, ¬ Uses Sample.W (namesIn Sample.W s1 (.obj 7)) (.obj 7) (.dict k w) := fun k w h => by simpa using hu h
  refine (C58_loader (C := Sample.C) (C' := { failonextra := true, basiccast := b }) rfl Sample.notRequiredLaw Sample.steadyTags ⟨rfl, rfl, rfl, rfl, rfl⟩ hr (.new (some []) [])
    (by rw [hsame]; exact .refl _ _) ⟨fun f n hf h hn => ?_, fun k w h => absurd h (hdict k w), fun k w h => absurd h (hdict k w),
      fun _ _ _ h => absurd h.uses (hdict _ _), fun _ _ _ h => absurd h.uses (hdict _ _)⟩).1 r'
  have := hu h
  simp at this
  subst this
  rw [hsame] at hf
  cases hf
  exact absurd hn (by decide)

/-- C58: a dumper that has dumped a `P` omitting the defaults, and is now told not to. -/
example (v : Val) (hv : Legal Sample.W v) : ∃ r s1, Dumps Sample.W Sample.D {} (.inst 0 [("x", .int 1), ("z", .str "q"), ("y", .int 5)]) .any r s1 ∧
    ∀ r', (∃ s2, Dumps Sample.W { hidedefault := false, mangleKey := "json" } s1 v .any r' s2) ↔
      ∃ s2, Dumps Sample.W { hidedefault := false, mangleKey := "json" } {} v .any r' s2 := by
  obtain ⟨r, s1, h⟩ : ∃ r s1, Dumps Sample.W Sample.D {} (.inst 0 [("x", .int 1), ("z", .str "q"), ("y", .int 5)]) .any r s1 := ⟨_, _, ⟨5, rfl⟩⟩
  have hl : Legal Sample.W (.inst 0 [("x", .int 1), ("z", .str "q"), ("y", .int 5)]) := by
    refine .of_parts ⟨Or.inl rfl, rfl, by simp⟩ (fun x hx => ?_)
    cases hx with
    | attr h =>
      simp only [List.mem_cons, Prod.mk.injEq, List.not_mem_nil, or_false] at h
      rcases h with ⟨_, rfl⟩ | ⟨_, rfl⟩ | ⟨_, rfl⟩
      · exact DumpPrim.legal_basic (p := .int) rfl
      · exact DumpPrim.legal_basic (p := .str) rfl
      · exact DumpPrim.legal_basic (p := .int) rfl
  exact ⟨r, s1, h, (C58_dumper (C := Sample.D) (C' := { hidedefault := false, mangleKey := "json" }) (DConfig.Default.byType rfl) ⟨rfl, rfl, rfl, rfl⟩ (DReachable.new.ok hl h) .new hv .any).1⟩

/-! ## Options that may not be changed -/

/-- **C58** `mangle_key` of a loader is not among the options that may be changed: the names of a dataclass that has been loaded are remembered. -/
theorem C58_mangle_key_counterexample : ∃ r s1 r' s2 e s3,
    Loads Sample.W Sample.C (fresh []) (.dict [(.str "x", .int 1), (.str "zed", .str "q")]) (.obj 0) r s1 ∧
    Loads Sample.W { mangleKey := "json" } s1 (.dict [(.str "x", .int 1), (.str "zed", .str "q")]) (.obj 0) r' s2 ∧
    Raises Sample.W { mangleKey := "json" } (fresh []) (.dict [(.str "x", .int 1), (.str "zed", .str "q")]) (.obj 0) e s3 :=
  ⟨_, _, _, _, _, _, ⟨9, rfl⟩, ⟨9, rfl⟩, ⟨9, rfl⟩⟩

/-- **C58** Nor is `basictypes`: the handlers of the types that have been loaded are remembered. -/
theorem C58_basictypes_counterexample : ∃ r s1 r' s2 e s3,
    Loads Sample.W Sample.C (fresh []) (.int 1) (.prim .int) r s1 ∧
    Loads Sample.W { basictypes := [.str] } s1 (.int 1) (.prim .int) r' s2 ∧
    Raises Sample.W { basictypes := [.str] } (fresh []) (.int 1) (.prim .int) e s3 :=
  ⟨_, _, _, _, _, _, ⟨9, rfl⟩, ⟨9, rfl⟩, ⟨9, rfl⟩⟩

/-- **C58** Nor is the list of handlers: a handler that is inserted after a type has been loaded is not used for it. -/
theorem C58_handlers_counterexample : ∃ r s1 r' s2 r'' s3,
    Loads Sample.WB Sample.C (fresh []) (.str "5") (.strcons "Path") r s1 ∧
    Loads Sample.WB Sample.CB s1 (.str "5") (.strcons "Path") r' s2 ∧
    Loads Sample.WB Sample.CB (fresh []) (.str "5") (.strcons "Path") r'' s3 ∧ r' = .strobj "Path" "5" ∧ r'' = .int 5 :=
  ⟨_, _, _, _, _, _, ⟨9, rfl⟩, ⟨9, rfl⟩, ⟨9, rfl⟩, rfl, rfl⟩

end TL
