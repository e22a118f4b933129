import Verif.Lemmas.DumpInv
import Verif.Sample
/-!
# Dumping: C38, C39, C40, C41
-/

namespace TL

variable {W : World} {C : DConfig}

/-! ## C41: dispatch and caches -/

/-- **C41** Whatever two dumpers of the same configuration have dumped before, they have the same outcome: the same data, the same
exception, or neither terminates. -/
theorem C41_history (hd : C.Default) {s s' : DState} (hs : DReachable W C s) (hs' : DReachable W C s') {v : Val} (hv : Legal W v) (t : Ty) :
    (∀ r, (∃ s1, Dumps W C s v t r s1) ↔ ∃ s1, Dumps W C s' v t r s1) ∧
    (∀ e, (∃ s1, DumpRaises W C s v t e s1) ↔ ∃ s1, DumpRaises W C s' v t e s1) :=
  ⟨fun r => by rw [dumps_ref hd hs hv, dumps_ref hd hs' hv], fun e => by rw [dumpRaises_ref hd hs hv, dumpRaises_ref hd hs' hv]⟩

theorem dIndexFrom_skip {v : Val} (pre : List (DCond × DHandler)) (rest : List (DCond × DHandler))
    (hpre : ∀ p ∈ pre, dEvalCond W C p.1 v = .ok false) : ∀ i, dIndexFrom W C v (pre ++ rest) i = dIndexFrom W C v rest (i + pre.length) := by
  induction pre with
  | nil => intro i; rfl
  | cons p pre ih =>
    intro i
    obtain ⟨c, h⟩ := p
    have := hpre (c, h) (by simp)
    dsimp only at this
    simp only [List.cons_append, dIndexFrom, this]
    rw [ih (fun p hp => hpre p (by simp [hp]))]
    congr 1
    simp; omega

/-- **C41** After any history, a dump is the call of the first handler whose condition holds of the value. -/
theorem C41_first (hd : C.Default) {s : DState} (hs : DReachable W C s) {v : Val} (hv : Legal W v) {pre post : List (DCond × DHandler)}
    {c : DCond} {h : DHandler} (hsplit : C.handlers = pre ++ (c, h) :: post) (hpre : ∀ p ∈ pre, dEvalCond W C p.1 v = .ok false)
    (hc : dEvalCond W C c v = .ok true) (t : Ty) (n : Nat) :
    ∃ s1, dump W C (n + 1) v t s = dstep W C (dataclassDesc W) (dump W C n) h v t s1 := by
  have hp : dPick W C v = .ok h := by
    have : dIndex W C v = .ok pre.length := by
      unfold dIndex
      rw [hsplit, dIndexFrom_skip _ _ hpre]
      simp [dIndexFrom, hc]
    unfold dPick
    rw [this]
    simp [hsplit]
  have hsim := DSim.resolve hd.byType hv.top s () (hs.coh hd)
  rw [hp] at hsim
  rw [show dump W C (n + 1) v t s = (dResolve W C v >>= fun h => dstep W C (dataclassDesc W) (dump W C n) h v t) s from rfl, M.bind_apply]
  cases hr : dResolve W C v s with
  | ok a s1 => rw [hr] at hsim; obtain ⟨rfl, _⟩ := hsim; exact ⟨s1, rfl⟩
  | err e s1 => rw [hr] at hsim; exact hsim.elim
  | div => rw [hr] at hsim; exact hsim.elim

/-- **C41** After any history, a value that no handler matches raises TypedloadValueError, carrying the value. -/
theorem C41_unsupported (hd : C.Default) {s : DState} (hs : DReachable W C s) {v : Val} (hv : Legal W v)
    (hno : ∀ p ∈ C.handlers, dEvalCond W C p.1 v = .ok false) (t : Ty) :
    (∃ e s', DumpRaises W C s v t e s' ∧ e.cls = .tlValue ∧ e.value = v) ∧ ∀ r s', ¬ Dumps W C s v t r s' := by
  have hp : dPick W C v = .error (unableToDump v) := by
    have : dIndex W C v = .error (unableToDump v) := by
      unfold dIndex
      have := dIndexFrom_skip (W := W) (C := C) (v := v) C.handlers [] hno 0
      rw [List.append_nil] at this
      rw [this]; rfl
    unfold dPick
    rw [this]
  have href : ∀ n, Ref.dump W C (n + 1) v t () = .err (unableToDump v) () := by
    intro n; unfold Ref.dump; rw [hp]; rfl
  refine ⟨?_, fun r s' h => ?_⟩
  · obtain ⟨s', h'⟩ := (dumpRaises_ref hd hs hv t _).2 ⟨1, href 0⟩
    refine ⟨_, s', h', ?_⟩
    have hseq : dEvalCond W C .isIter v = .ok false := by
      have := hno (.isIter, .iterator) (by rw [hd]; simp [defaultDHandlers])
      exact this
    unfold unableToDump
    cases v <;> simp [dEvalCond] at hseq <;> exact ⟨rfl, rfl⟩
  · obtain ⟨n, h'⟩ := (dumps_ref hd hs hv t r).1 ⟨s', h⟩
    cases n with
    | zero => cases h'
    | succ n => rw [href] at h'; cases h'

/-- `'Unable to dump %s' % value` cannot be formatted: the value is a tuple, or a NamedTuple, of other than one element. -/
def Unprintable (v : Val) : Prop :=
  (∃ xs, v = .seq .tuple xs ∧ xs.length ≠ 1) ∨ ∃ c fs, v = .nt c fs ∧ fs.length ≠ 1

/-- **C41** The dispatch table of a dumper with any handlers, custom ones included, on a class of values it meets for the first
time.  The conditions are tried in order; a condition that raises is skipped when `raiseconditionerrors` is off. -/
theorem C41_table {s : DState} {v : Val} (hnew : aget s.hc (typeOf v) = none) (t : Ty) (n : Nat) :
    -- the handler of the first condition that holds is called, and remembered for the class
    (∀ pre c h post, C.handlers = pre ++ (c, h) :: post →
      (∀ p ∈ pre, dEvalCond W C p.1 v = .ok false ∨ (C.raiseconditionerrors = false ∧ ∃ e, dEvalCond W C p.1 v = .error e)) →
      dEvalCond W C c v = .ok true →
      dump W C (n + 1) v t s = dstep W C (dataclassDesc W) (dump W C n) h v t { s with hc := aset s.hc (typeOf v) h }) ∧
    -- an exception of a condition tried before that leaves the dumper as it is, when `raiseconditionerrors` is on
    (∀ pre c h post e, C.handlers = pre ++ (c, h) :: post → (∀ p ∈ pre, dEvalCond W C p.1 v = .ok false) →
      dEvalCond W C c v = .error e → C.raiseconditionerrors = true → DumpRaises W C s v t (.plain e) s) ∧
    -- no condition holds: TypedloadValueError with the value and its class; TypeError if the value cannot be printed
    ((∀ p ∈ C.handlers, dEvalCond W C p.1 v = .ok false ∨ (C.raiseconditionerrors = false ∧ ∃ e, dEvalCond W C p.1 v = .error e)) →
      (¬ Unprintable v → ∃ e, DumpRaises W C s v t e s ∧ e.cls = .tlValue ∧ e.value = v ∧ e.ty = some (typeOf v) ∧ e.trace = []) ∧
      (Unprintable v → DumpRaises W C s v t (.plain .type) s)) := by
  have skip : ∀ (pre rest : List (DCond × DHandler)),
      (∀ p ∈ pre, dEvalCond W C p.1 v = .ok false ∨ (C.raiseconditionerrors = false ∧ ∃ e, dEvalCond W C p.1 v = .error e)) →
      ∀ i, dIndexFrom W C v (pre ++ rest) i = dIndexFrom W C v rest (i + pre.length) := by
    intro pre rest hpre
    induction pre with
    | nil => intro i; rfl
    | cons p pre ih =>
      intro i
      obtain ⟨c, h⟩ := p
      have hrec := ih (fun p hp => hpre p (by simp [hp])) (i + 1)
      rcases hpre (c, h) (by simp) with h1 | ⟨h1, e, h2⟩
      · dsimp only at h1
        simp only [List.cons_append, dIndexFrom, h1]
        rw [hrec]; congr 1; simp; omega
      · dsimp only at h2
        simp only [List.cons_append, dIndexFrom, h2, h1]
        simp only [Bool.false_eq_true, if_false]
        rw [hrec]; congr 1; simp; omega
  have hdump : ∀ n, dump W C (n + 1) v t s = (dResolve W C v >>= fun h => dstep W C (dataclassDesc W) (dump W C n) h v t) s := fun _ => rfl
  have hres : dResolve W C v s = match dPick W C v with
      | .ok h => .ok h { s with hc := aset s.hc (typeOf v) h }
      | .error e => .err e s := by
    simp only [dResolve, M.bind_apply, M.get, hnew]
    cases dPick W C v <;> rfl
  have herr : ∀ e, dPick W C v = .error e → DumpRaises W C s v t e s := by
    intro e he
    refine ⟨1, ?_⟩
    rw [hdump, M.bind_apply, hres, he]
  refine ⟨?_, ?_, ?_⟩
  · intro pre c h post hsplit hpre hc
    have hp : dPick W C v = .ok h := by
      have : dIndex W C v = .ok pre.length := by
        unfold dIndex
        rw [hsplit, skip _ _ hpre]
        simp [dIndexFrom, hc]
      unfold dPick
      rw [this]
      simp [hsplit]
    rw [hdump, M.bind_apply, hres, hp]
  · intro pre c h post e hsplit hpre hc hr
    refine herr _ ?_
    have : dIndex W C v = .error (.plain e) := by
      unfold dIndex
      rw [hsplit, skip _ _ (fun p hp => Or.inl (hpre p hp))]
      simp [dIndexFrom, hc, hr]
    unfold dPick
    rw [this]
  · intro hno
    have hp : dPick W C v = .error (unableToDump v) := by
      have : dIndex W C v = .error (unableToDump v) := by
        unfold dIndex
        have := skip C.handlers [] hno 0
        rw [List.append_nil] at this
        rw [this]; rfl
      unfold dPick
      rw [this]
    refine ⟨fun hv => ⟨_, herr _ hp, ?_⟩, fun hv => ?_⟩
    · have : unableToDump v = .mk .tlValue (.unableToDump v) [] v (some (typeOf v)) [] := by
        unfold unableToDump
        split
        · rw [if_pos]; exact Classical.byContradiction fun hne => hv (Or.inl ⟨_, rfl, hne⟩)
        · rw [if_pos]; exact Classical.byContradiction fun hne => hv (Or.inr ⟨_, _, rfl, hne⟩)
        · rfl
      rw [this]; exact ⟨rfl, rfl, rfl, rfl⟩
    · have : unableToDump v = .plain .type := by
        rcases hv with ⟨xs, rfl, hne⟩ | ⟨c, fs, rfl, hne⟩
        · simp [unableToDump, hne]
        · simp [unableToDump, hne]
      exact herr _ (this ▸ hp)

/-- Hypotheses of C41_table: a dumper that only knows basic types, given a pair, a list, and an int. -/
example : aget ({} : DState).hc (typeOf (.tuple [.int 1, .int 2])) = none ∧ Unprintable (.tuple [.int 1, .int 2]) ∧
    ¬ Unprintable (.list [.int 1, .int 2]) :=
  ⟨rfl, Or.inl ⟨_, rfl, by decide⟩, by rintro (⟨_, h, _⟩ | ⟨_, _, h, _⟩) <;> cases h⟩
example : DumpRaises Sample.W { handlers := [(.isBasic, .identity)] } {} (.tuple [.int 1, .int 2]) .any (.plain .type) {} :=
  ((C41_table (C := { handlers := [(.isBasic, .identity)] }) rfl .any 0).2.2 (by intro p hp; simp at hp; subst hp; exact Or.inl rfl)).2
    (Or.inl ⟨_, rfl, by decide⟩)

/-! ## C38: dumps are plain data -/

/-- The annotation says that the elements are of the basic type `p`: `List[p]`, `Set[p]`, `Tuple[p, ...]`, `Tuple[p]` (and, by an accident,
`Pattern[p]`). -/
inductive ElementsOf (p : Prim) : Ty → Prop
  | coll {k} : ElementsOf p (.coll k (.prim p))
  | tuple : ElementsOf p (.tuple [.prim p])
  | pattern : ElementsOf p (.pattern (some p))

/-- The value does not contradict the annotation: if the annotation announces elements of a basic type, the elements are basic. -/
def TruthfulAt (C : DConfig) (t : Ty) (x : Val) : Prop :=
  ∀ p k xs, ElementsOf p t → p ∈ C.basictypes → x = .seq k xs → ∀ y ∈ xs, ∃ q, typeOf y = .prim q ∧ q ∈ C.basictypes

/-- Attributes of dataclasses do not contradict their annotations. -/
def Truthful (W : World) (C : DConfig) (v : Val) : Prop :=
  ∀ c fs, Inside W v (.inst c fs) → (W.cls c).kind = .dataclass → ∀ f ∈ (W.cls c).fields, ∀ x, (f.name, x) ∈ fs → TruthfulAt C f.ty x

/-- The basic types of dumped data: those of the configuration, and those of the built-in formats. -/
def DumpPrim (C : DConfig) (p : Prim) : Prop := p ∈ C.basictypes ∨ p = .str ∨ p = .int ∨ p = .float

theorem iterItemTy_basic {t : Ty} (h : C.isBasic (iterItemTy t) = true) : ∃ p, ElementsOf p t ∧ p ∈ C.basictypes := by
  unfold iterItemTy at h
  split at h
  · rename_i u
    cases u <;> simp [DConfig.isBasic] at h
    exact ⟨_, .coll, h⟩
  · rename_i u
    cases u <;> simp [DConfig.isBasic] at h
    exact ⟨_, .tuple, h⟩
  · simp [DConfig.isBasic] at h
    exact ⟨_, .pattern, h⟩
  · simp [DConfig.isBasic] at h

theorem dconfig_isBasic {t : Ty} (h : C.isBasic t = true) : ∃ p, t = .prim p ∧ p ∈ C.basictypes := by
  cases t <;> simp [DConfig.isBasic] at h
  exact ⟨_, rfl, h⟩

theorem Plain.hash_basic {P : Prim → Prop} {v : Val} (h : Plain P v) (hh : W.hash v = true) : ∃ p, typeOf v = .prim p ∧ P p := by
  cases h with
  | basic h1 h2 => exact ⟨_, h1, h2⟩
  | list => simp [World.hash, hashable] at hh
  | dict => simp [World.hash, hashable] at hh

theorem plain_dict {P : Prim → Prop} {l : List (Val × Val)} (hk : ∀ q ∈ l, ∃ p, typeOf q.1 = .prim p ∧ P p) (hx : ∀ q ∈ l, Plain P q.2) :
    Plain P (.dict (l.foldl (fun a q => dset a q.1 q.2) [])) := by
  refine .dict (fun q hq => ?_) (fun q hq => ?_) (foldl_dset_distinct' l (by simp [Distinct]))
  · rcases (mem_foldl_dset hq).1 with ⟨q', h1, h2⟩ | ⟨_, h, _⟩
    · rw [← h2]; exact hk q' h1
    · cases h
  · rcases (mem_foldl_dset hq).2 with ⟨q', h1, h2⟩ | ⟨_, h, _⟩
    · rw [← h2]; exact hx q' h1
    · cases h

theorem aget_hints {fs : List Field} {n : String} {t : Ty} (h : aget (fs.map (fun f => (f.name, f.ty))) n = some t) : ∃ f ∈ fs, f.name = n ∧ f.ty = t := by
  obtain ⟨f, hf, he⟩ := List.mem_map.1 (aget_mem h)
  cases he
  exact ⟨f, hf, rfl, rfl⟩

theorem refdump_plain (hd : C.Default) (n : Nat) : ∀ v t r, Legal W v → Truthful W C v → TruthfulAt C t v →
    (∀ p, Inside W v (.pattern p) → ∃ q, typeOf p = .prim q ∧ DumpPrim C q) → Ref.dump W C n v t () = .ok r () → Plain (DumpPrim C) r := by
  induction n with
  | zero => intro v t r _ _ _ _ h; cases h
  | succ n ih =>
    intro v t r hl ht hta hpat h
    have any : ∀ x, TruthfulAt C .any x := fun x p k xs h => by cases h
    have sub : ∀ x t' y, Inside W v x → TruthfulAt C t' x → Ref.dump W C n x t' () = .ok y () → Plain (DumpPrim C) y := fun x t' y hx hta h =>
      ih x t' y (hl.inside hx) (fun c fs hi => ht c fs (hi.trans hx)) hta (fun p hp => hpat p (hp.trans hx)) h
    unfold Ref.dump at h
    rw [dPick_eq hd] at h
    unfold dHandlerOf at h
    by_cases hb : C.isBasic (typeOf v) = true
    · rw [if_pos hb] at h
      cases h
      obtain ⟨p, h1, h2⟩ := dconfig_isBasic hb
      exact .basic h1 (Or.inl h2)
    rw [if_neg hb] at h
    have strb : ∀ s : String, Plain (DumpPrim C) (.str s) := fun s => .basic (p := .str) rfl (Or.inr (Or.inl rfl))
    have intb : ∀ i : Int, Plain (DumpPrim C) (.int i) := fun s => .basic (p := .int) rfl (Or.inr (Or.inr (Or.inl rfl)))
    have hdate : ∀ is : List Int, Plain (DumpPrim C) (.list (is.map .int)) := fun is => .list (fun x hx => by
      obtain ⟨i, _, rfl⟩ := List.mem_map.1 hx; exact intb i)
    cases v with
    | nt c fs =>
      dsimp only at h
      unfold dstep at h
      dsimp only at h
      rw [R.bind_ok] at h
      obtain ⟨kvs, h1, h2⟩ := h
      cases h2
      have hz := dumpNt_ok.1 h1
      have hnd := hl.top.2.2
      refine .dict (fun q hq => ?_) (fun q hq => ?_) ?_
      · obtain ⟨p, _, h2, _⟩ := hz.mem_right hq
        exact ⟨.str, by rw [h2]; rfl, Or.inr (Or.inl rfl)⟩
      · obtain ⟨p, hp, _, h3⟩ := hz.mem_right hq
        exact sub _ _ _ (.item (n := p.1) .self (List.mem_filter.1 hp).1) (any _) h3
      · have hk : kvs.map (·.1) = (fs.filter (fun p => !(C.hidedefault && isDefault (classDefaults (W.cls c)) p.1 p.2))).map (fun p => Val.str p.1) := by
          generalize fs.filter _ = l at hz
          clear h1
          induction hz with
          | nil => rfl
          | cons h _ ih => simp [h.1, ih]
        rw [hk]
        unfold Distinct
        rw [List.pairwise_map]
        have : (fs.map (·.1)).Pairwise (· ≠ ·) := hnd
        rw [List.pairwise_map] at this
        refine (this.filter _).imp (fun {a b} hab => ?_)
        simpa [pyEq] using hab
    | inst c fs =>
      dsimp only at h
      cases hk : (W.cls c).kind with
      | dataclass =>
        rw [hk] at h
        dsimp only at h
        unfold dstep at h
        dsimp only at h
        rw [R.bind_ok] at h
        obtain ⟨d, hd', h⟩ := h
        cases hd'
        rw [R.bind_ok] at h
        obtain ⟨kvs, h1, h2⟩ := h
        cases h2
        obtain ⟨_, l, hz, rfl⟩ := dumpFields_ok.1 h1
        refine plain_dict (fun q hq => ?_) (fun q hq => ?_)
        · obtain ⟨f, _, h2, _⟩ := hz.mem_right hq
          exact ⟨.str, by rw [h2]; rfl, Or.inr (Or.inl rfl)⟩
        · obtain ⟨f, hf, _, x, hx, h3⟩ := hz.mem_right hq
          have hin := aget_mem hx
          refine sub _ _ _ (.attr (n := f) .self hin) ?_ h3
          cases hg : aget (mkDataDesc W (W.cls c)).hints f with
          | none => exact any _
          | some ft =>
            obtain ⟨g, hg1, rfl, rfl⟩ := aget_hints hg
            exact ht c fs .self hk g hg1 x hin
      | attrs =>
        rw [hk] at h
        dsimp only at h
        unfold dstep at h
        dsimp only at h
        rw [R.bind_ok] at h
        obtain ⟨kvs, h1, h2⟩ := h
        cases h2
        obtain ⟨_, l, hz, rfl⟩ := dumpAttrs_ok.1 h1
        refine plain_dict (fun q hq => ?_) (fun q hq => ?_)
        · obtain ⟨f, _, h2, _⟩ := hz.mem_right hq
          exact ⟨.str, by rw [h2]; rfl, Or.inr (Or.inl rfl)⟩
        · obtain ⟨f, hf, _, x, hx, h3⟩ := hz.mem_right hq
          exact sub _ _ _ (.attr (n := f.name) .self (aget_mem hx)) (any _) h3
      | namedtuple => rw [hk] at h; cases h
      | typeddict => rw [hk] at h; cases h
    | seq k xs =>
      dsimp only at h
      unfold dstep at h
      dsimp only at h
      unfold iteratordump at h
      cases hc : (C.isBasic (iterItemTy t) && (C.handlers.head?.map (·.2) == some .identity)) with
      | true =>
        rw [hc] at h
        cases h
        obtain ⟨p, hp1, hp2⟩ := iterItemTy_basic (by simp at hc; exact hc.1)
        refine .list (fun y hy => ?_)
        obtain ⟨q, hq1, hq2⟩ := hta p k xs hp1 hp2 rfl y hy
        exact .basic hq1 (Or.inl hq2)
      | false =>
        rw [hc, if_neg (by simp), R.bind_ok] at h
        obtain ⟨ys, h1, h2⟩ := h
        cases h2
        refine .list (fun y hy => ?_)
        obtain ⟨x, hx, h3⟩ := (dumpList_ok.1 h1).mem_right hy
        exact sub _ _ _ (.elem .self hx) (any _) h3
    | enumv e m =>
      dsimp only at h
      unfold dstep at h
      dsimp only at h
      cases hm : aget (W.enm e).members m with
      | none => rw [hm] at h; cases h
      | some x => rw [hm] at h; exact sub _ _ _ (.member .self hm) (any _) h
    | dict kvs =>
      dsimp only at h
      unfold dstep at h
      dsimp only at h
      rw [R.bind_ok] at h
      obtain ⟨kvs', h1, h2⟩ := h
      cases h2
      obtain ⟨l, hz, rfl⟩ := dumpDict_ok.1 h1
      refine plain_dict (fun q hq => ?_) (fun q hq => ?_)
      · obtain ⟨p, hp, h2, h3, h4⟩ := hz.mem_right hq
        exact (sub _ _ _ (.key (x := p.2) .self hp) (any _) h2).hash_basic h4
      · obtain ⟨p, hp, h2, h3, h4⟩ := hz.mem_right hq
        exact sub _ _ _ (.val (k := p.1) .self hp) (any _) h3
    | date y m d =>
      dsimp only at h
      unfold dstep at h
      dsimp only at h
      unfold datetimedump at h
      split at h
      · cases h; exact strb _
      · cases h; exact hdate [y, m, d]
    | time a b c d tz =>
      dsimp only at h
      unfold dstep at h
      dsimp only at h
      unfold datetimedump at h
      split at h
      · cases h; exact strb _
      · dsimp only at h
        split at h
        · cases h
        · cases h; exact hdate [a, b, c, d]
    | datetime y m d a b c e tz =>
      dsimp only at h
      unfold dstep at h
      dsimp only at h
      unfold datetimedump at h
      split at h
      · cases h; exact strb _
      · dsimp only at h
        split at h
        · cases h
        · cases h; exact hdate [y, m, d, a, b, c, e]
    | timedelta us => cases h; exact .basic (p := .float) rfl (Or.inr (Or.inr (Or.inr rfl)))
    | pattern p =>
      cases h
      obtain ⟨q, h1, h2⟩ := hpat r .self
      exact .basic h1 h2
    | strobj c' s' =>
      dsimp only at h
      cases hc : C.strconstructed.contains c' with
      | true => rw [hc] at h; cases h; exact strb _
      | false => rw [hc] at h; cases h
    | _ => cases h

/-- **C38** What dump returns is plain data: instances of the basic types, lists, and dictionaries with such keys — provided that the
annotations of dataclass attributes do not lie, and that patterns of bytes are not dumped (unless `bytes` is a basic type). -/
theorem C38_plain (hd : C.Default) {s s' : DState} (hs : DReachable W C s) {v r : Val} (hv : Legal W v) (ht : Truthful W C v)
    (hpat : ∀ p, Inside W v (.pattern p) → typeOf p = .prim .str ∨ .bytes ∈ C.basictypes) (h : Dumps W C s v .any r s') : Plain (DumpPrim C) r := by
  obtain ⟨n, h⟩ := (dumps_ref hd hs hv .any r).1 ⟨s', h⟩
  refine refdump_plain hd n v .any r hv ht (fun p k xs h => by cases h) (fun p hp => ?_) h
  rcases hv _ hp with h1 | h1
  · exact ⟨_, h1, Or.inr (Or.inl rfl)⟩
  · rcases hpat p hp with h2 | h2
    · exact ⟨_, h2, Or.inr (Or.inl rfl)⟩
    · exact ⟨_, h1, Or.inl h2⟩

/-! ## C40: dumping plain data -/

theorem Plain.legal {P : Prim → Prop} {v : Val} (h : Plain P v) : Legal W v := by
  have key : ∀ x, Inside W v x → Plain P x := by
    intro x hx
    induction hx with
    | self => exact h
    | elem _ hx ih =>
      cases ih with
      | basic h => cases h
      | list h => exact h _ hx
    | key _ hx ih =>
      cases ih with
      | basic h => cases h
      | dict h _ _ => obtain ⟨p, h1, h2⟩ := h _ hx; exact .basic h1 h2
    | val _ hx ih =>
      cases ih with
      | basic h => cases h
      | dict _ h _ => exact h _ hx
    | arg _ _ ih => cases ih with | basic h => cases h
    | item _ _ ih => cases ih with | basic h => cases h
    | attr _ _ ih => cases ih with | basic h => cases h
    | member _ _ ih => cases ih with | basic h => cases h
    | source _ ih => cases ih with | basic h => cases h
  intro x hx
  cases key x hx with
  | basic h => cases x <;> first | trivial | (cases h)
  | list => exact fun h => (by cases h)
  | dict h _ hk =>
    refine ⟨hk, fun p hp => ?_⟩
    obtain ⟨q, h1, _⟩ := h p hp
    cases hp1 : p.1 <;> rw [hp1] at h1 <;> first | (cases h1; done) | rfl

theorem refdump_identity (hd : C.Default) {d : Val} (h : Plain (· ∈ C.basictypes) d) : ∀ t, ∃ n, Ref.dump W C n d t () = .ok d () := by
  have basic : ∀ v p, typeOf v = .prim p → p ∈ C.basictypes → ∀ t n, Ref.dump W C (n + 1) v t () = .ok v () := by
    intro v p h1 h2 t n
    have hb : C.isBasic (typeOf v) = true := by rw [h1]; simpa [DConfig.isBasic] using h2
    unfold Ref.dump
    rw [dPick_eq hd]
    unfold dHandlerOf
    rw [if_pos hb]
    rfl
  induction h with
  | basic h1 h2 => intro t; exact ⟨1, basic _ _ h1 h2 t 0⟩
  | @list xs hx0 ih =>
    intro t
    have hz : ∃ n, Zip2 (fun x y => Ref.dump W C n x .any () = .ok y ()) xs xs := by
      clear t
      induction xs with
      | nil => exact ⟨0, .nil⟩
      | cons x xs ihx =>
        obtain ⟨n, hn⟩ := ih x (by simp) .any
        obtain ⟨m, hm⟩ := ihx (fun x hx => hx0 x (by simp [hx])) (fun x hx => ih x (by simp [hx]))
        exact ⟨max n m, .cons (refdump_le (Nat.le_max_left n m) hn) (hm.mono (fun _ _ h => refdump_le (Nat.le_max_right n m) h))⟩
    obtain ⟨n, hn⟩ := hz
    refine ⟨n + 1, ?_⟩
    unfold Ref.dump
    rw [dPick_eq hd]
    unfold dHandlerOf
    rw [if_neg (by simp [typeOf, DConfig.isBasic])]
    dsimp only
    unfold dstep
    dsimp only
    unfold iteratordump
    split
    · rfl
    · rw [R.bind_ok]
      exact ⟨xs, dumpList_ok.2 hn, rfl⟩
  | @dict kvs hk hx0 hdist ih =>
    intro t
    have hz : ∃ n, Zip2 (fun p q => Ref.dump W C n p.1 .any () = .ok q.1 () ∧ Ref.dump W C n p.2 .any () = .ok q.2 () ∧ W.hash q.1 = true) kvs kvs := by
      clear t hdist
      induction kvs with
      | nil => exact ⟨0, .nil⟩
      | cons p kvs ihx =>
        obtain ⟨n, hn⟩ := ih p (by simp) .any
        obtain ⟨m, hm⟩ := ihx (fun x hx => hk x (by simp [hx])) (fun x hx => hx0 x (by simp [hx])) (fun x hx => ih x (by simp [hx]))
        obtain ⟨q, h1, h2⟩ := hk p (by simp)
        refine ⟨max n m + 1, .cons ⟨basic _ _ h1 h2 _ _, refdump_le (by omega) hn, ?_⟩
          (hm.mono (fun _ _ h => ⟨refdump_le (by omega) h.1, refdump_le (by omega) h.2.1, h.2.2⟩))⟩
        cases hp1 : p.1 <;> rw [hp1] at h1 <;> first | (cases h1; done) | rfl
    obtain ⟨n, hn⟩ := hz
    refine ⟨n + 1, ?_⟩
    unfold Ref.dump
    rw [dPick_eq hd]
    unfold dHandlerOf
    rw [if_neg (by simp [typeOf, DConfig.isBasic])]
    dsimp only
    unfold dstep
    dsimp only
    rw [R.bind_ok]
    refine ⟨kvs, dumpDict_ok.2 ⟨kvs, hn, ?_⟩, rfl⟩
    rw [foldl_dset_distinct (acc := []) (by simpa using hdist)]
    rfl

/-- **C40** Dumping plain data of any depth returns it unchanged, and nothing else, whatever the dumper has done before. -/
theorem C40_identity (hd : C.Default) {s : DState} (hs : DReachable W C s) {d : Val} (h : Plain (· ∈ C.basictypes) d) (t : Ty) (r : Val) :
    (∃ s', Dumps W C s d t r s') ↔ r = d := by
  rw [dumps_ref hd hs h.legal]
  obtain ⟨n, hn⟩ := refdump_identity (W := W) hd h t
  constructor
  · rintro ⟨m, hm⟩; exact refdump_det hm hn
  · rintro rfl; exact ⟨n, hn⟩

theorem Plain.mono {P Q : Prim → Prop} (hPQ : ∀ p, P p → Q p) {v : Val} (h : Plain P v) : Plain Q v := by
  induction h with
  | basic h1 h2 => exact .basic h1 (hPQ _ h2)
  | list _ ih => exact .list ih
  | dict h _ h3 ih => exact .dict (fun q hq => (by obtain ⟨p, h1, h2⟩ := h q hq; exact ⟨p, h1, hPQ _ h2⟩)) ih h3

/-- **C40** Dumping what dump returned changes nothing. -/
theorem C40_twice (hd : C.Default) {s s1 s2 : DState} (hs : DReachable W C s) (hs2 : DReachable W C s2) {v r : Val} (hv : Legal W v)
    (ht : Truthful W C v) (hpat : ∀ p, Inside W v (.pattern p) → typeOf p = .prim .str ∨ .bytes ∈ C.basictypes)
    (hb : .str ∈ C.basictypes ∧ .int ∈ C.basictypes ∧ .float ∈ C.basictypes) (h : Dumps W C s v .any r s1) (r' : Val) :
    (∃ s', Dumps W C s2 r .any r' s') ↔ r' = r := by
  refine C40_identity hd hs2 ((C38_plain hd hs hv ht hpat h).mono ?_) .any r'
  rintro p (h | rfl | rfl | rfl)
  · exact h
  · exact hb.1
  · exact hb.2.1
  · exact hb.2.2


/-! ## C39: hidedefault -/

/-- The key under which a field of a dataclass or attrs class is dumped. -/
def dumpKey (C : DConfig) (f : Field) : String := (aget f.metadata C.mangleKey).getD f.name

/-- The attribute is to be shown: defaults are not hidden, or there is no default, or the default differs from the value. -/
def ToShow (C : DConfig) (f : Field) (x : Val) : Prop := C.hidedefault = true → ∀ d, f.default = some d → pyEq d x = false

/-- The same for attrs, which compares in the other order, and never shows attributes with `repr=False`. -/
def ToShowAttr (C : DConfig) (f : Field) (x : Val) : Prop := f.repr = true ∧ (C.hidedefault = true → ∀ d, f.default = some d → pyEq x d = false)

theorem aget_classDefaults {fs : List Field} (hn : (fs.map (·.name)).Nodup) {f : Field} (hf : f ∈ fs) :
    aget (fs.filterMap (fun f => f.default.map (fun d => (f.name, d)))) f.name = f.default := by
  induction fs with
  | nil => cases hf
  | cons g fs ih =>
    simp only [List.map_cons, List.nodup_cons] at hn
    have absent : ∀ n, n ∉ fs.map (·.name) → aget (fs.filterMap (fun f => f.default.map (fun d => (f.name, d)))) n = none := by
      intro n hnn
      cases ha : aget (fs.filterMap (fun f => f.default.map (fun d => (f.name, d)))) n with
      | none => rfl
      | some d =>
        obtain ⟨f', hf', he⟩ := List.mem_filterMap.1 (aget_mem ha)
        cases hd : f'.default with
        | none => rw [hd] at he; cases he
        | some d' =>
          rw [hd] at he; cases he
          exact absurd (List.mem_map.2 ⟨f', hf', rfl⟩) hnn
    rcases List.mem_cons.1 hf with rfl | hf
    · cases hd : f.default with
      | none => rw [List.filterMap_cons_none (by rw [hd]; rfl)]; exact absent _ hn.1
      | some d => rw [List.filterMap_cons_some (by rw [hd]; rfl)]; simp [aget]
    · have hne : g.name ≠ f.name := fun h => hn.1 (h ▸ List.mem_map.2 ⟨f, hf, rfl⟩)
      cases hd : g.default with
      | none => rw [List.filterMap_cons_none (by rw [hd]; rfl)]; exact ih hn.2 hf
      | some d =>
        rw [List.filterMap_cons_some (by rw [hd]; rfl)]
        simp only [aget, if_neg hne]
        exact ih hn.2 hf

theorem find_field {fs : List Field} (hn : (fs.map (·.name)).Nodup) {f : Field} (hf : f ∈ fs) : fs.find? (fun g => g.name == f.name) = some f := by
  induction fs with
  | nil => cases hf
  | cons g fs ih =>
    simp only [List.map_cons, List.nodup_cons] at hn
    rcases List.mem_cons.1 hf with rfl | hf
    · simp
    · have hne : g.name ≠ f.name := fun h => hn.1 (h ▸ List.mem_map.2 ⟨f, hf, rfl⟩)
      rw [List.find?_cons_of_neg (by simpa using hne)]
      exact ih hn.2 hf

theorem aget_of_mem {κ α : Type} [DecidableEq κ] {l : List (κ × α)} (hn : (l.map (·.1)).Nodup) {k : κ} {x : α} (h : (k, x) ∈ l) : aget l k = some x := by
  induction l with
  | nil => cases h
  | cons p l ih =>
    obtain ⟨a, b⟩ := p
    simp only [List.map_cons, List.nodup_cons] at hn
    rcases List.mem_cons.1 h with h | h
    · cases h; simp [aget]
    · have hne : a ≠ k := fun e => hn.1 (e ▸ List.mem_map.2 ⟨_, h, rfl⟩)
      simp only [aget, if_neg hne]
      exact ih hn.2 h

theorem mem_dset_strkey (acc : List (Val × Val)) (n : String) (x : Val) : ∃ q ∈ dset acc (.str n) x, q.1 = .str n := by
  have h : dget (dset acc (.str n) x) (.str n) = some x := by rw [dget_dset_str]; simp
  exact ⟨_, dget_mem_str h, rfl⟩

/-- The keys of a dictionary built by assignment from string keys. -/
theorem keys_foldl_dset (l : List (Val × Val)) (hl : ∀ q ∈ l, ∃ n, q.1 = .str n) : ∀ acc : List (Val × Val), (∀ q ∈ acc, ∃ n, q.1 = .str n) → ∀ k,
    k ∈ (l.foldl (fun a q => dset a q.1 q.2) acc).map (·.1) ↔ k ∈ acc.map (·.1) ∨ k ∈ l.map (·.1) := by
  induction l with
  | nil => intro acc _ k; simp
  | cons p l ih =>
    intro acc hacc k
    obtain ⟨kp, xp⟩ := p
    obtain ⟨n, hn⟩ := hl (kp, xp) (by simp)
    dsimp only at hn; subst hn
    rw [List.foldl_cons, ih (fun q hq => hl q (by simp [hq]))]
    · have : k ∈ (dset acc (.str n) xp).map (·.1) ↔ k ∈ acc.map (·.1) ∨ k = .str n := by
        rcases dset_keys_cases acc (.str n) xp with h | ⟨h, _⟩
        · rw [h]
          constructor
          · exact Or.inl
          · rintro (h' | rfl)
            · exact h'
            · obtain ⟨q, hq, he⟩ := mem_dset_strkey acc n xp
              rw [← h]
              exact List.mem_map.2 ⟨q, hq, he⟩
        · rw [h]; simp
      rw [this, List.map_cons, List.mem_cons, or_assoc]
    · intro q hq
      rcases (mem_dset_parts hq).1 with h | ⟨q', h1, h2⟩
      · exact ⟨n, h⟩
      · rw [← h2]; exact hacc q' h1

theorem dget_foldl_dset (m : String) (l : List (Val × Val)) : ∀ acc : List (Val × Val),
    (∃ y, dget (l.foldl (fun a q => dset a q.1 q.2) acc) (.str m) = some y ∧ (.str m, y) ∈ l) ∨
    (dget (l.foldl (fun a q => dset a q.1 q.2) acc) (.str m) = dget acc (.str m) ∧ .str m ∉ l.map (·.1)) := by
  induction l with
  | nil => intro acc; right; simp
  | cons p l ih =>
    intro acc
    obtain ⟨k, x⟩ := p
    rcases ih (dset acc k x) with ⟨y, h1, h2⟩ | ⟨h1, h2⟩
    · left; exact ⟨y, h1, by simp [h2]⟩
    · by_cases hk : k = .str m
      · subst hk
        left
        refine ⟨x, ?_, by simp⟩
        rw [List.foldl_cons, h1, dget_dset_str, if_pos rfl]
      · right
        refine ⟨?_, ?_⟩
        · rw [List.foldl_cons, h1, dget_dset_str, if_neg hk]
        · simp only [List.map_cons, List.mem_cons, not_or]
          exact ⟨fun h => hk h.symm, h2⟩

theorem assigned {α : Type} {key : α → String} {R : α → Val → Prop} {as : List α} {l : List (Val × Val)}
    (h : Zip2 (fun a q => q.1 = .str (key a) ∧ R a q.2) as l) :
    (∀ k, k ∈ (l.foldl (fun a q => dset a q.1 q.2) []).map (·.1) ↔ ∃ a ∈ as, k = .str (key a)) ∧
    (∀ a ∈ as, (∀ b ∈ as, key b = key a → b = a) → ∃ y, (.str (key a), y) ∈ l.foldl (fun a q => dset a q.1 q.2) [] ∧ R a y) := by
  have hl : ∀ q ∈ l, ∃ n, q.1 = .str n := fun q hq => by
    obtain ⟨a, _, h1, _⟩ := h.mem_right hq; exact ⟨_, h1⟩
  refine ⟨fun k => ?_, fun a ha hu => ?_⟩
  · rw [keys_foldl_dset l hl [] (fun _ h => (by cases h))]
    simp only [List.map_nil, List.not_mem_nil, false_or]
    constructor
    · intro hk
      obtain ⟨q, hq, rfl⟩ := List.mem_map.1 hk
      obtain ⟨a, ha, h1, _⟩ := h.mem_right hq
      exact ⟨a, ha, h1⟩
    · rintro ⟨a, ha, rfl⟩
      obtain ⟨q, hq, h1, _⟩ := h.mem_left ha
      exact List.mem_map.2 ⟨q, hq, h1⟩
  · rcases dget_foldl_dset (key a) l [] with ⟨y, h1, h2⟩ | ⟨_, h2⟩
    · obtain ⟨b, hb, h3, h4⟩ := h.mem_right h2
      have : b = a := hu b hb (Val.str.inj h3).symm
      subst this
      exact ⟨y, dget_mem_str h1, h4⟩
    · obtain ⟨q, hq, h1, _⟩ := h.mem_left ha
      exact absurd (List.mem_map.2 ⟨q, hq, h1⟩) h2

/-- What hidedefault requires of the dictionary `kvs` dumped from an instance with the attributes `vals`: its keys are the external names
of the fields that are to be shown, and nothing else; and the field, if no other one has the same external name, is there
with its dumped value. -/
def DumpedAs (fields : List Field) (shown : Field → Val → Prop) (key : Field → String) (dumped : Field → Val → Val → Prop)
    (vals : List (String × Val)) (kvs : List (Val × Val)) : Prop :=
  (∀ k, k ∈ kvs.map (·.1) ↔ ∃ f ∈ fields, ∃ x, (f.name, x) ∈ vals ∧ shown f x ∧ k = .str (key f)) ∧
  (∀ f ∈ fields, ∀ x, (f.name, x) ∈ vals → shown f x → (∀ g ∈ fields, key g = key f → g = f) → ∃ y, (.str (key f), y) ∈ kvs ∧ dumped f x y) ∧
  Distinct (kvs.map (·.1))

theorem dumpName_eq {cd : ClassDef} (hn : (cd.fields.map (·.name)).Nodup) {f : Field} (hf : f ∈ cd.fields) : dumpName C cd f.name = dumpKey C f := by
  unfold dumpName dumpKey
  rw [find_field hn hf]

theorem aget_hints_of {fs : List Field} (hn : (fs.map (·.name)).Nodup) {f : Field} (hf : f ∈ fs) :
    aget (fs.map (fun f => (f.name, f.ty))) f.name = some f.ty :=
  aget_of_mem (by rw [List.map_map]; exact hn) (List.mem_map.2 ⟨f, hf, rfl⟩)

theorem not_hidden_iff {b : Bool} {o : Option Val} {x : Val} {p : Bool} (hp : p = match o with
    | some d => pyEq d x
    | none => false) : (!(b && p)) = true ↔ (b = true → ∀ d, o = some d → pyEq d x = false) := by
  subst hp
  cases b <;> cases o <;> simp

theorem not_hidden_iff' {b : Bool} {o : Option Val} {x : Val} {p : Bool} (hp : p = match o with
    | some d => pyEq x d
    | none => false) : (!(b && p)) = true ↔ (b = true → ∀ d, o = some d → pyEq x d = false) := by
  subst hp
  cases b <;> cases o <;> simp

theorem dataclass_dumped (hby : C.ByType W) {s s' : DState} (hs : DReachable W C s) {c : Nat} {vals : List (String × Val)} (hv : Legal W (.inst c vals))
    (hp : dPick W C (.inst c vals) = .ok .dataclass) {t : Ty} {r : Val} (h : Dumps W C s (.inst c vals) t r s') :
    ∃ kvs, r = .dict kvs ∧ DumpedAs (W.cls c).fields (ToShow C) (dumpKey C) (fun f x y => ∃ s1, Dumps W C s x f.ty y s1) vals kvs := by
  obtain ⟨_, hnames, hnd⟩ := hv.top
  have hnf : ((W.cls c).fields.map (·.name)).Nodup := hnames ▸ hnd
  obtain ⟨n, h⟩ := (dumps_ref_byType hby hs hv t r).1 ⟨s', h⟩
  cases n with
  | zero => cases h
  | succ n =>
    unfold Ref.dump at h
    rw [hp] at h
    dsimp only at h
    unfold dstep at h
    dsimp only at h
    rw [R.bind_ok] at h
    obtain ⟨d, hd', h⟩ := h
    cases hd'
    rw [R.bind_ok] at h
    obtain ⟨kvs, h1, h2⟩ := h
    cases h2
    obtain ⟨hall, l, hz, rfl⟩ := dumpFields_ok.1 h1
    refine ⟨_, rfl, ?_⟩
    have hz' : Zip2 (fun f q => q.1 = .str (dumpName C (W.cls c) f) ∧
        ∃ x, aget vals f = some x ∧ Ref.dump W C n x ((aget (mkDataDesc W (W.cls c)).hints f).getD .any) () = .ok q.2 ()) _ l := hz
    have hmem : ∀ f ∈ (W.cls c).fields, ∀ x, aget vals f.name = some x → (f.name ∈ (mkDataDesc W (W.cls c)).fields.filter
        (fun f => !(C.hidedefault && isDefault (mkDataDesc W (W.cls c)).defaults f ((aget vals f).getD .none))) ↔ ToShow C f x) := by
      intro f hf x hx
      have e : isDefault (mkDataDesc W (W.cls c)).defaults f.name x = match f.default with
          | some d => pyEq d x
          | none => false := by
        unfold isDefault
        rw [show aget (mkDataDesc W (W.cls c)).defaults f.name = f.default from aget_classDefaults hnf hf]
        rfl
      rw [List.mem_filter, hx]
      unfold ToShow
      rw [← not_hidden_iff e]
      have : f.name ∈ (mkDataDesc W (W.cls c)).fields := (W.setOrder_perm _).mem_iff.2 (List.mem_map.2 ⟨f, hf, rfl⟩)
      simp [this]
    obtain ⟨ha, hb⟩ := assigned (key := dumpName C (W.cls c))
      (R := fun f y => ∃ x, aget vals f = some x ∧ Ref.dump W C n x ((aget (mkDataDesc W (W.cls c)).hints f).getD .any) () = .ok y ()) hz'
    have hfield : ∀ g, g ∈ (mkDataDesc W (W.cls c)).fields → ∃ f ∈ (W.cls c).fields, f.name = g := fun g hg => List.mem_map.1 ((W.setOrder_perm _).mem_iff.1 hg)
    refine ⟨fun k => ?_, fun f hf x hx hsh hu => ?_, foldl_dset_distinct' l (by simp [Distinct])⟩
    · rw [ha]
      constructor
      · rintro ⟨g, hg, rfl⟩
        obtain ⟨f, hf, rfl⟩ := hfield g (List.mem_filter.1 hg).1
        obtain ⟨x, hx⟩ := hall f.name (List.mem_filter.1 hg).1
        exact ⟨f, hf, x, aget_mem hx, (hmem f hf x hx).1 hg, by rw [dumpName_eq hnf hf]⟩
      · rintro ⟨f, hf, x, hx, hsh, rfl⟩
        exact ⟨f.name, (hmem f hf x (aget_of_mem hnd hx)).2 hsh, by rw [dumpName_eq hnf hf]⟩
    · obtain ⟨y, hy, x', hx', h3⟩ := hb f.name ((hmem f hf x (aget_of_mem hnd hx)).2 hsh) (fun g hg he => by
        obtain ⟨g', hg', rfl⟩ := hfield g (List.mem_filter.1 hg).1
        rw [dumpName_eq hnf hf, dumpName_eq hnf hg'] at he
        rw [hu g' hg' he])
      rw [aget_of_mem hnd hx] at hx'; cases hx'
      rw [dumpName_eq hnf hf] at hy
      rw [show aget (mkDataDesc W (W.cls c)).hints f.name = some f.ty from aget_hints_of hnf hf] at h3
      exact ⟨y, hy, (dumps_ref_byType hby hs (hv.inside (.attr .self hx)) _ _).2 ⟨n, h3⟩⟩

/-- **C39** Dataclasses: with hidedefault, the dump of an instance has exactly the fields that have no default or differ from it; without,
all of them; under the external names. -/
theorem C39_dataclass (hd : C.Default) {s s' : DState} (hs : DReachable W C s) {c : Nat} {vals : List (String × Val)} (hv : Legal W (.inst c vals))
    (hk : (W.cls c).kind = .dataclass) {t : Ty} {r : Val} (h : Dumps W C s (.inst c vals) t r s') :
    ∃ kvs, r = .dict kvs ∧ DumpedAs (W.cls c).fields (ToShow C) (dumpKey C) (fun f x y => ∃ s1, Dumps W C s x f.ty y s1) vals kvs :=
  dataclass_dumped hd.byType hs hv (by
    rw [dPick_eq hd]
    unfold dHandlerOf
    rw [if_neg (by simp [typeOf, DConfig.isBasic])]
    dsimp only
    rw [hk]) h

theorem attrs_dumped (hby : C.ByType W) {s s' : DState} (hs : DReachable W C s) {c : Nat} {vals : List (String × Val)} (hv : Legal W (.inst c vals))
    (hp : dPick W C (.inst c vals) = .ok .attrs) {t : Ty} {r : Val} (h : Dumps W C s (.inst c vals) t r s') :
    ∃ kvs, r = .dict kvs ∧ DumpedAs (W.cls c).fields (ToShowAttr C) (dumpKey C) (fun _ x y => ∃ s1, Dumps W C s x .any y s1) vals kvs := by
  obtain ⟨_, hnames, hnd⟩ := hv.top
  have hnf : ((W.cls c).fields.map (·.name)).Nodup := hnames ▸ hnd
  obtain ⟨n, h⟩ := (dumps_ref_byType hby hs hv t r).1 ⟨s', h⟩
  cases n with
  | zero => cases h
  | succ n =>
    unfold Ref.dump at h
    rw [hp] at h
    dsimp only at h
    unfold dstep at h
    dsimp only at h
    rw [R.bind_ok] at h
    obtain ⟨kvs, h1, h2⟩ := h
    cases h2
    obtain ⟨hall, l, hz, rfl⟩ := dumpAttrs_ok.1 h1
    refine ⟨_, rfl, ?_⟩
    have hmem : ∀ f ∈ (W.cls c).fields, ∀ x, aget vals f.name = some x → (f ∈ (W.cls c).fields.filter
        (fun f => f.repr && !(C.hidedefault && attrIsDefault f ((aget vals f.name).getD .none))) ↔ ToShowAttr C f x) := by
      intro f hf x hx
      rw [List.mem_filter, hx, Bool.and_eq_true]
      unfold ToShowAttr
      rw [← not_hidden_iff' (p := attrIsDefault f x) rfl]
      simp [hf]
    obtain ⟨ha, hb⟩ := assigned (key := dumpKey C)
      (R := fun f y => ∃ x, aget vals f.name = some x ∧ Ref.dump W C n x .any () = .ok y ()) hz
    refine ⟨fun k => ?_, fun f hf x hx hsh hu => ?_, foldl_dset_distinct' l (by simp [Distinct])⟩
    · rw [ha]
      constructor
      · rintro ⟨f, hg, rfl⟩
        have hf := (List.mem_filter.1 hg).1
        obtain ⟨x, hx⟩ := hall f hf
        exact ⟨f, hf, x, aget_mem hx, (hmem f hf x hx).1 hg, rfl⟩
      · rintro ⟨f, hf, x, hx, hsh, rfl⟩
        exact ⟨f, (hmem f hf x (aget_of_mem hnd hx)).2 hsh, rfl⟩
    · obtain ⟨y, hy, x', hx', h3⟩ := hb f ((hmem f hf x (aget_of_mem hnd hx)).2 hsh) (fun g hg he => hu g (List.mem_filter.1 hg).1 he)
      rw [aget_of_mem hnd hx] at hx'; cases hx'
      exact ⟨y, hy, (dumps_ref_byType hby hs (hv.inside (.attr .self hx)) _ _).2 ⟨n, h3⟩⟩

/-- **C39** attrs classes: the same, but fields with `repr=False` are never shown. -/
theorem C39_attrs (hd : C.Default) {s s' : DState} (hs : DReachable W C s) {c : Nat} {vals : List (String × Val)} (hv : Legal W (.inst c vals))
    (hk : (W.cls c).kind = .attrs) {t : Ty} {r : Val} (h : Dumps W C s (.inst c vals) t r s') :
    ∃ kvs, r = .dict kvs ∧ DumpedAs (W.cls c).fields (ToShowAttr C) (dumpKey C) (fun _ x y => ∃ s1, Dumps W C s x .any y s1) vals kvs :=
  attrs_dumped hd.byType hs hv (by
    rw [dPick_eq hd]
    unfold dHandlerOf
    rw [if_neg (by simp [typeOf, DConfig.isBasic])]
    dsimp only
    rw [hk]) h

theorem namedtuple_dumped (hby : C.ByType W) {s s' : DState} (hs : DReachable W C s) {c : Nat} {vals : List (String × Val)} (hv : Legal W (.nt c vals))
    (hp : dPick W C (.nt c vals) = .ok .namedtuple) {t : Ty} {r : Val} (h : Dumps W C s (.nt c vals) t r s') :
    ∃ kvs, r = .dict kvs ∧ DumpedAs (W.cls c).fields (ToShow C) Field.name (fun _ x y => ∃ s1, Dumps W C s x .any y s1) vals kvs := by
  obtain ⟨_, hnames, hnd⟩ := hv.top
  have hnf : ((W.cls c).fields.map (·.name)).Nodup := hnames ▸ hnd
  obtain ⟨n, h⟩ := (dumps_ref_byType hby hs hv t r).1 ⟨s', h⟩
  cases n with
  | zero => cases h
  | succ n =>
    unfold Ref.dump at h
    rw [hp] at h
    dsimp only at h
    unfold dstep at h
    dsimp only at h
    rw [R.bind_ok] at h
    obtain ⟨kvs, h1, h2⟩ := h
    cases h2
    have hz := dumpNt_ok.1 h1
    refine ⟨_, rfl, ?_⟩
    have hmem : ∀ f ∈ (W.cls c).fields, ∀ x, (f.name, x) ∈ vals → ((f.name, x) ∈ vals.filter
        (fun p => !(C.hidedefault && isDefault (classDefaults (W.cls c)) p.1 p.2)) ↔ ToShow C f x) := by
      intro f hf x hx
      have e : isDefault (classDefaults (W.cls c)) f.name x = match f.default with
          | some d => pyEq d x
          | none => false := by
        unfold isDefault
        rw [show aget (classDefaults (W.cls c)) f.name = f.default from aget_classDefaults hnf hf]
        rfl
      rw [List.mem_filter]
      unfold ToShow
      rw [← not_hidden_iff e]
      simp [hx]
    have hfield : ∀ p ∈ vals, ∃ f ∈ (W.cls c).fields, f.name = p.1 := fun p hp => by
      have : p.1 ∈ vals.map (·.1) := List.mem_map.2 ⟨p, hp, rfl⟩
      rw [hnames] at this
      exact List.mem_map.1 this
    refine ⟨fun k => ?_, fun f hf x hx hsh _ => ?_, ?_⟩
    · constructor
      · intro hk
        obtain ⟨q, hq, rfl⟩ := List.mem_map.1 hk
        obtain ⟨p, hp, h3, _⟩ := hz.mem_right hq
        obtain ⟨f, hf, hfn⟩ := hfield p (List.mem_filter.1 hp).1
        have hp' := (List.mem_filter.1 hp).1
        obtain ⟨a, x⟩ := p
        dsimp only at hfn h3; subst hfn
        exact ⟨f, hf, x, hp', (hmem f hf x hp').1 hp, h3⟩
      · rintro ⟨f, hf, x, hx, hsh, rfl⟩
        obtain ⟨q, hq, h3, _⟩ := hz.mem_left ((hmem f hf x hx).2 hsh)
        exact List.mem_map.2 ⟨q, hq, h3⟩
    · obtain ⟨q, hq, h3, h4⟩ := hz.mem_left ((hmem f hf x hx).2 hsh)
      obtain ⟨a, y⟩ := q
      dsimp only at h3 h4; subst h3
      exact ⟨y, hq, (dumps_ref_byType hby hs (hv.inside (.item .self hx)) _ _).2 ⟨n, h4⟩⟩
    · have hk : kvs.map (·.1) = (vals.filter (fun p => !(C.hidedefault && isDefault (classDefaults (W.cls c)) p.1 p.2))).map (fun p => Val.str p.1) := by
        clear hmem
        generalize vals.filter _ = l at hz
        clear h1 h
        induction hz with
        | nil => rfl
        | cons h _ ih => simp [h.1, ih]
      rw [hk]
      unfold Distinct
      rw [List.pairwise_map]
      have : (vals.map (·.1)).Pairwise (· ≠ ·) := hnd
      rw [List.pairwise_map] at this
      refine (this.filter _).imp (fun {a b} hab => ?_)
      simpa [pyEq] using hab

/-- **C39** NamedTuples: the same, under the names of the fields. -/
theorem C39_namedtuple (hd : C.Default) {s s' : DState} (hs : DReachable W C s) {c : Nat} {vals : List (String × Val)} (hv : Legal W (.nt c vals))
    {t : Ty} {r : Val} (h : Dumps W C s (.nt c vals) t r s') :
    ∃ kvs, r = .dict kvs ∧ DumpedAs (W.cls c).fields (ToShow C) Field.name (fun _ x y => ∃ s1, Dumps W C s x .any y s1) vals kvs :=
  namedtuple_dumped hd.byType hs hv (by
    rw [dPick_eq hd]
    unfold dHandlerOf
    rw [if_neg (by simp [typeOf, DConfig.isBasic])]) h

/-! ## Examples -/

theorem DumpPrim.legal_basic {v : Val} {p : Prim} (h : typeOf v = .prim p) : Legal W v := (Plain.basic (P := fun _ => True) h trivial).legal

namespace Sample

/-- `P(x=1, z='q', y=5)` -/
def p0 : Val := .inst 0 [("x", .int 1), ("z", .str "q"), ("y", .int 5)]
/-- `[N(a=2, b='x'), E.A, {1, 2}, date(2020, 2, 29)]` -/
def l0 : Val := .list [.nt 1 [("a", .int 2), ("b", .str "x")], .enumv 0 "A", .seq .set [.int 1, .int 2], .date 2020 2 29]

theorem p0_legal : Legal Sample.W p0 := by
  refine .of_parts ⟨Or.inl rfl, rfl, by decide⟩ (fun x hx => ?_)
  cases hx with
  | attr h =>
    simp only [List.mem_cons, Prod.mk.injEq, List.not_mem_nil, or_false] at h
    rcases h with ⟨_, rfl⟩ | ⟨_, rfl⟩ | ⟨_, rfl⟩
    · exact DumpPrim.legal_basic (p := .int) rfl
    · exact DumpPrim.legal_basic (p := .str) rfl
    · exact DumpPrim.legal_basic (p := .int) rfl

theorem l0_legal : Legal Sample.W l0 := by
  refine .of_parts (fun h => (by cases h)) (fun x hx => ?_)
  cases hx with
  | elem h =>
    simp only [List.mem_cons, List.not_mem_nil, or_false] at h
    rcases h with rfl | rfl | rfl | rfl
    · refine .of_parts ⟨rfl, rfl, by decide⟩ (fun x hx => ?_)
      cases hx with
      | item h =>
        simp only [List.mem_cons, Prod.mk.injEq, List.not_mem_nil, or_false] at h
        rcases h with ⟨_, rfl⟩ | ⟨_, rfl⟩
        · exact DumpPrim.legal_basic (p := .int) rfl
        · exact DumpPrim.legal_basic (p := .str) rfl
    · refine .of_parts ⟨_, rfl⟩ (fun x hx => ?_)
      cases hx with
      | member h => cases h; exact DumpPrim.legal_basic (p := .int) rfl
    · refine .of_parts (fun _ => ⟨?_, by decide⟩) (fun x hx => ?_)
      · unfold Distinct; decide
      · cases hx with
        | elem h =>
          simp only [List.mem_cons, List.not_mem_nil, or_false] at h
          rcases h with rfl | rfl <;> exact DumpPrim.legal_basic (p := .int) rfl
    · exact .of_parts (by show validDate _ _ _ = true; decide) (fun x hx => (by cases hx))

theorem l0_truthful : Truthful Sample.W Sample.D l0 := by
  intro c fs hi
  exfalso
  have : ∀ x, Inside Sample.W l0 x → ∀ c fs, x ≠ .inst c fs := by
    intro x hx c fs
    rcases hx.head with rfl | ⟨p, h1, h2⟩
    · intro h; cases h
    · cases h1 with
      | elem h =>
        simp only [List.mem_cons, List.not_mem_nil, or_false] at h
        rcases h with rfl | rfl | rfl | rfl
        · rcases h2.head with rfl | ⟨p, h3, h4⟩
          · intro h; cases h
          · cases h3 with
            | item h =>
              simp only [List.mem_cons, Prod.mk.injEq, List.not_mem_nil, or_false] at h
              rcases h with ⟨_, rfl⟩ | ⟨_, rfl⟩ <;> rcases h4.head with rfl | ⟨p, h5, _⟩ <;> first | (intro h; cases h; done) | cases h5
        · rcases h2.head with rfl | ⟨p, h3, h4⟩
          · intro h; cases h
          · cases h3 with
            | member h => cases h; rcases h4.head with rfl | ⟨p, h5, _⟩ <;> first | (intro h; cases h; done) | cases h5
        · rcases h2.head with rfl | ⟨p, h3, h4⟩
          · intro h; cases h
          · cases h3 with
            | elem h =>
              simp only [List.mem_cons, List.not_mem_nil, or_false] at h
              rcases h with rfl | rfl <;> rcases h4.head with rfl | ⟨p, h5, _⟩ <;> first | (intro h; cases h; done) | cases h5
        · rcases h2.head with rfl | ⟨p, h3, _⟩
          · intro h; cases h
          · cases h3
  exact this _ hi c fs rfl

end Sample

-- C38, C40: the hypotheses hold of a list with a NamedTuple, an enum member, a set and a date, which is dumped to plain data
example : DReachable Sample.W Sample.D {} ∧ Legal Sample.W Sample.l0 ∧ Truthful Sample.W Sample.D Sample.l0 ∧
    ∃ s', Dumps Sample.W Sample.D {} Sample.l0 .any (.list [.dict [(.str "a", .int 2)], .int 1, .list [.int 1, .int 2], .list [.int 2020, .int 2, .int 29]]) s' :=
  ⟨.new, Sample.l0_legal, Sample.l0_truthful, _, 5, rfl⟩

/-- **C38**, **C40** fail when the annotation lies: the class says `List[int]`, the value holds an enum member; it is copied. -/
theorem C38_untruthful_counterexample : ∃ (W : World) (v : Val) (s' : DState), Legal W v ∧ Dumps W {} {} v .any (.dict [(.str "xs", .list [.enumv 0 "A"])]) s' ∧
    ∀ P, ¬ Plain P (.dict [(.str "xs", .list [.enumv 0 "A"])]) := by
  refine ⟨{ Sample.W with cls := fun _ => { kind := .dataclass, name := "K", fields := [{ name := "xs", ty := .coll .list (.prim .int) }] } },
    .inst 0 [("xs", .list [.enumv 0 "A"])], _, ?_, ⟨5, rfl⟩, fun P h => ?_⟩
  · refine .of_parts ⟨Or.inl rfl, rfl, by simp⟩ (fun x hx => ?_)
    cases hx with
    | attr h =>
      simp only [List.mem_cons, Prod.mk.injEq, List.not_mem_nil, or_false] at h
      obtain ⟨_, rfl⟩ := h
      refine .of_parts (fun h => (by cases h)) (fun x hx => ?_)
      cases hx with
      | elem h =>
        simp only [List.mem_cons, List.not_mem_nil, or_false] at h
        subst h
        refine .of_parts ⟨.int 1, rfl⟩ (fun x hx => ?_)
        cases hx with
        | member h => cases h; exact DumpPrim.legal_basic (p := .int) rfl
  · cases h with
    | basic h => cases h
    | dict _ h _ =>
      cases h (.str "xs", .list [.enumv 0 "A"]) (by simp) with
      | basic h => cases h
      | list h =>
        cases h (.enumv 0 "A") (by simp) with
        | basic h => cases h

-- C39: the field y is hidden, z is renamed
example : Legal Sample.W Sample.p0 ∧ (Sample.W.cls 0).kind = .dataclass ∧
    (∃ s', Dumps Sample.W Sample.D {} Sample.p0 .any (.dict [(.str "x", .int 1), (.str "zed", .str "q")]) s') ∧
    (∃ s', Dumps Sample.W { hidedefault := false } {} Sample.p0 .any (.dict [(.str "x", .int 1), (.str "zed", .str "q"), (.str "y", .int 5)]) s') :=
  ⟨Sample.p0_legal, rfl, ⟨_, 5, rfl⟩, ⟨_, 5, rfl⟩⟩
example : Legal Sample.W (.inst 3 [("u", .int 1)]) ∧ (Sample.W.cls 3).kind = .attrs ∧
    (∃ s', Dumps Sample.W Sample.D {} (.inst 3 [("u", .int 1)]) .any (.dict [(.str "u", .int 1)]) s') := by
  refine ⟨.of_parts ⟨Or.inr rfl, rfl, by decide⟩ (fun x hx => ?_), rfl, _, 5, rfl⟩
  cases hx with
  | attr h =>
    simp only [List.mem_cons, Prod.mk.injEq, List.not_mem_nil, or_false] at h
    obtain ⟨_, rfl⟩ := h
    exact DumpPrim.legal_basic (p := .int) rfl
example : Legal Sample.W (.nt 1 [("a", .int 2), ("b", .str "x")]) ∧
    (∃ s', Dumps Sample.W Sample.D {} (.nt 1 [("a", .int 2), ("b", .str "x")]) .any (.dict [(.str "a", .int 2)]) s') :=
  ⟨Sample.l0_legal.inside (.elem .self (by simp)), _, 5, rfl⟩

-- C41: bytes are not supported by default; a state with a non-empty cache
example : Legal Sample.W (.bytes [1]) ∧ ∀ p ∈ Sample.D.handlers, dEvalCond Sample.W Sample.D p.1 (.bytes [1]) = .ok false :=
  ⟨DumpPrim.legal_basic (p := .bytes) rfl, by decide⟩
example : ∃ s, DReachable Sample.W Sample.D s ∧ s.hc ≠ [] ∧ s.dc ≠ [] := by
  have h : Dumps Sample.W Sample.D {} Sample.p0 .any (.dict [(.str "x", .int 1), (.str "zed", .str "q")]) _ := ⟨5, rfl⟩
  exact ⟨_, .ok .new Sample.p0_legal h, by decide, by decide⟩
-- an empty tuple that no handler takes raises a plain TypeError while the message is being formatted (hence `Legal` values with the default handlers)
example : dump Sample.W { handlers := [] } 1 (.tuple []) .any {} = .err (Exc.plain .type) {} := rfl

end TL
