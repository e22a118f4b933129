import Verif.Lemmas.Dumping
import Verif.Props.DumpTotal
import Verif.Props.DumpThreads
/-!
# C75: what dump returns is the value place by place, exactly
-/

namespace TL

variable {W : World} {C : DConfig}

/-- **C75** A dumper with the default handlers, whatever it did before, returns `r` for the value exactly when `r` is what the value is dumped as, place by
place: values of basic types as they are, collections as the list of their elements, dictionaries as dictionaries, objects as the dictionary of their shown
fields under their external names, enum members as their value, dates as lists or ISO strings, and so on. -/
theorem C75_exact (hd : C.Default) (hw : W.LegalDefaults) {s : DState} (hs : DReachable W C s) {v : Val} (hv : Legal W v) {t : Ty} {r : Val} :
    (∃ s', Dumps W C s v t r s') ↔ Dumped W C v t r := by
  rw [dumps_ref hd hs hv]
  exact ⟨fun ⟨n, h⟩ => refdump_dumped hd hw hv h, fun h => dumped_refdump hd hw h hv⟩

/-- **C75** It raises exactly when nothing is what the value is dumped as. -/
theorem C75_refused (hd : C.Default) (hw : W.LegalDefaults) (hg : W.GroundedEnums) {s : DState} (hs : DReachable W C s) {v : Val} (hv : Legal W v)
    {t : Ty} : (∃ e s', DumpRaises W C s v t e s') ↔ ∀ r, ¬ Dumped W C v t r := by
  constructor
  · rintro ⟨e, s', n, h⟩ r hr
    obtain ⟨s2, m, h2⟩ := (C75_exact hd hw hs hv).2 hr
    obtain ⟨k, hk⟩ := (dumpRaises_ref hd hs hv t e).1 ⟨s', n, h⟩
    obtain ⟨k', hk'⟩ := (dumps_ref hd hs hv t r).1 ⟨s2, m, h2⟩
    have h1 := LeM.refdump (Nat.le_max_left k k') v t () (by rw [hk]; exact fun h => by cases h)
    have h2 := LeM.refdump (Nat.le_max_right k k') v t () (by rw [hk']; exact fun h => by cases h)
    rw [hk] at h1; rw [hk'] at h2; rw [h1] at h2; cases h2
  · intro h
    rcases C51_ends hd hg hs hv t with ⟨r, s', hr⟩ | he
    · exact absurd ((C75_exact hd hw hs hv).1 ⟨s', hr⟩) (h r)
    · exact he

/-- **C75** At most one thing is what a value is dumped as. -/
theorem C75_unique (hd : C.Default) (hw : W.LegalDefaults) {v : Val} (hv : Legal W v) {t : Ty} {r r' : Val} (h : Dumped W C v t r)
    (h' : Dumped W C v t r') : r = r' := by
  obtain ⟨n, hn⟩ := dumped_refdump hd hw h hv
  obtain ⟨m, hm⟩ := dumped_refdump hd hw h' hv
  exact refdump_det hn hm

/-- **C75** The same when several threads use the dumper at the same time, under every schedule of their accesses to its caches: what the call of a thread
returns is what its value is dumped as. -/
theorem C75_threads (hd : C.Default) (hw : W.LegalDefaults) {s : DState} (hs : DReachable W C s) {jobs : List DJob} (hl : ∀ j ∈ jobs, Legal W j.value)
    {c : DConf} (hc : (DConf.start W C s jobs).Steps c) {i : Nat} {j : DJob} (hj : jobs[i]? = some j) {r : Val} (hr : c.threads[i]? = some (.ret r)) :
    Dumped W C j.value j.type r :=
  (C75_exact hd hw hs (hl j (List.mem_of_getElem? hj))).1 ((C65_alone hd.byType hs hl hc hj).1 r hr)

namespace Sample

theorem legalDefaults : Sample.W.LegalDefaults := by
  intro c f hf d hd
  match c with
  | 0 | 1 | 2 | 3 | 4 | 5 | 6 | 7 | 8 =>
    simp [Sample.W, Sample.cls, clsP, clsN, clsT, clsA, clsB, clsL1, clsL2, clsNode, clsHolder] at hf
    rcases hf with rfl | rfl | rfl <;> first | (cases hd; done) | (cases hd; exact DumpPrim.legal_basic (p := .int) rfl) | (cases hd; exact DumpPrim.legal_basic (p := .str) rfl)
  | n + 9 => cases hf

end Sample

-- the hypotheses are met, and both sides hold: `P(x=1, z='q', y=5)` with hidedefault is `{'x': 1, 'zed': 'q'}`
example : ∃ C, C.Default ∧ C.hidedefault = true ∧ DReachable Sample.W C {} ∧ Legal Sample.W Sample.p0 ∧
    Dumped Sample.W C Sample.p0 .any (.dict [(.str "x", .int 1), (.str "zed", .str "q")]) := by
  have hd : DConfig.Default { Sample.D with hidedefault := true } := rfl
  exact ⟨{ Sample.D with hidedefault := true }, hd, rfl, .new, Sample.p0_legal,
    (C75_exact hd Sample.legalDefaults .new Sample.p0_legal).1 ⟨_, 5, rfl⟩⟩

-- `[N(a=2, b='x'), E.A, {1, 2}, date(2020, 2, 29)]`
example : Dumped Sample.W Sample.D Sample.l0 .any (.list [.dict [(.str "a", .int 2)], .int 1, .list [.int 1, .int 2], .list [.int 2020, .int 2, .int 29]]) :=
  (C75_exact (C := Sample.D) (show Sample.D.Default from rfl) Sample.legalDefaults .new Sample.l0_legal).1 ⟨_, 5, rfl⟩

end TL
