import Verif.Lemmas.Load
import Verif.Spec.Tags
/-!
# The rewriting of TypedDict annotations is not observable

Two runs from states that differ only in which TypedDict annotations have been rewritten have the same outcome, in programs
where `NotRequired` fields are not in `__required_keys__` (which Python guarantees, PEP 655) and do not hide a Literal.
-/

namespace TL

/-- Two outcomes are the same, in related states. -/
def SimRes {σ σ' ε α : Type} (R : σ → σ' → Prop) : Res σ ε α → Res σ' ε α → Prop
  | .ok a s, .ok b s' => a = b ∧ R s s'
  | .err a s, .err b s' => a = b ∧ R s s'
  | .div, .div => True
  | _, _ => False

/-- `m` and `m'` have the same outcome from related states. -/
def Sim {σ σ' ε α : Type} (R : σ → σ' → Prop) (m : M σ ε α) (m' : M σ' ε α) : Prop := ∀ s s', R s s' → SimRes R (m s) (m' s')

section sim
variable {σ σ' ε α β : Type} {R : σ → σ' → Prop}
theorem Sim.pure (a : α) : Sim R (pure a : M σ ε α) (Pure.pure a : M σ' ε α) := fun _ _ h => ⟨rfl, h⟩
theorem Sim.throw (e : ε) : Sim R (M.throw e : M σ ε α) (M.throw e : M σ' ε α) := fun _ _ h => ⟨rfl, h⟩
theorem Sim.bind {m : M σ ε α} {m' : M σ' ε α} {f : α → M σ ε β} {f' : α → M σ' ε β} (hm : Sim R m m') (hf : ∀ a, Sim R (f a) (f' a)) :
    Sim R (m >>= f) (m' >>= f') := by
  intro s s' h
  have := hm s s' h
  simp only [M.bind_apply]
  cases h1 : m s <;> cases h2 : m' s' <;> simp_all [SimRes]
  exact hf _ _ _ this.2
theorem Sim.rescue {m : M σ ε α} {m' : M σ' ε α} {f : ε → M σ ε α} {f' : ε → M σ' ε α} (hm : Sim R m m') (hf : ∀ a, Sim R (f a) (f' a)) :
    Sim R (M.rescue m f) (M.rescue m' f') := by
  intro s s' h
  have := hm s s' h
  simp only [M.catch_apply]
  cases h1 : m s <;> cases h2 : m' s' <;> simp_all [SimRes]
  exact hf _ _ _ this.2
theorem Sim.handle {m : M σ ε α} {m' : M σ' ε α} {f : α → M σ ε β} {f' : α → M σ' ε β} {g : ε → M σ ε β} {g' : ε → M σ' ε β}
    (hm : Sim R m m') (hf : ∀ a, Sim R (f a) (f' a)) (hg : ∀ a, Sim R (g a) (g' a)) : Sim R (M.handle m f g) (M.handle m' f' g') := by
  intro s s' h
  have := hm s s' h
  simp only [M.handle_apply]
  cases h1 : m s <;> cases h2 : m' s' <;> simp_all [SimRes]
  · exact hf _ _ _ this.2
  · exact hg _ _ _ this.2
theorem Sim.script {σ σ' : Type} {R : σ → σ' → Prop} {call : Val → Ty → Option Annotation → M σ Exc Val}
    {call' : Val → Ty → Option Annotation → M σ' Exc Val} (h : ∀ v t a, Sim R (call v t a) (call' v t a)) (p : Script) :
    Sim R (p.run call) (p.run call') := by
  induction p with
  | ret v => exact Sim.pure _
  | raise e => exact Sim.throw _
  | call v t a next ih => exact Sim.handle (h v t a) (fun r => ih (.ok r)) (fun e => ih (.error e))
end sim

/-- The states agree but for the rewritten annotations. -/
structure EqRew (s s' : LState) : Prop where
  idx : s.idx = s'.idx
  frefs : s.frefs = s'.frefs
  objc : s.objc = s'.objc
  disc : s.disc = s'.disc

variable {W : World} {C : Config}

theorem filterMap_congr' {α β : Type} {f g : α → Option β} : ∀ {l : List α}, (∀ x ∈ l, f x = g x) →
    l.filterMap f = l.filterMap g
  | [], _ => rfl
  | x :: l, h => by
    have h1 := h x (by simp)
    have h2 := filterMap_congr' (l := l) (fun y hy => h y (by simp [hy]))
    simp [List.filterMap_cons, h1, h2]

theorem discriminatorliterals_rew (hw : W.NoHiddenLiteral) (r1 r2 : List Nat) (t : Ty) :
    discriminatorliterals W r1 t = discriminatorliterals W r2 t := by
  unfold discriminatorliterals
  split
  · rename_i c
    apply filterMap_congr'
    intro f hf
    cases hn : f.notRequired with
    | false => simp
    | true =>
      have := hw c f hf hn
      have hl : literalvalues f.ty = none := by
        unfold literalvalues; unfold is_literal at this; split <;> simp_all
      simp [hl]
  · rfl

theorem mkDisc_rew (hw : W.NoHiddenLiteral) (r1 r2 : List Nat) (ts : List Ty) : mkDisc W r1 ts = mkDisc W r2 ts := by
  unfold mkDisc
  have : (ts.map fun t => (t, discriminatorliterals W r1 t)) = ts.map fun t => (t, discriminatorliterals W r2 t) := by
    apply List.map_congr_left; intro t _; rw [discriminatorliterals_rew hw r1 r2]
  rw [this]

theorem typeddictInfo_rew (hw : W.NotRequiredLaw) (c : Nat) (b b' : Bool) :
    typeddictInfo (W.cls c) b = typeddictInfo (W.cls c) b' := by
  have : ∀ b, (W.cls c).fields.filter (fun f => f.required && !(f.notRequired && !b)) =
      (W.cls c).fields.filter (fun f => f.required) := by
    intro b
    apply List.filter_congr
    intro f hf
    cases hn : f.notRequired with
    | false => simp
    | true => simp [hw c f hf hn]
  simp only [typeddictInfo, this]

section
variable {α β : Type}

theorem EqRew.sim_get_bind {f f' : LState → L α}
    (hf : ∀ s s', EqRew s s' → Sim EqRew (f s) (f' s')) : Sim EqRew (M.get >>= f) (M.get >>= f') := by
  intro s s' h
  simp only [M.bind_apply, M.get_apply]
  exact hf s s' h s s' h

theorem EqRew.resolve (t : Ty) (e : Exc) : Sim EqRew (resolve W C t e) (resolve W C t e) := by
  intro s s' h
  unfold TL.resolve
  simp only [M.bind_apply, M.get_apply, h.idx]
  cases aget s'.idx t with
  | some x => exact ⟨rfl, h⟩
  | none => cases pick W C t with
    | ok x => exact ⟨rfl, ⟨by simp [h.idx], h.frefs, h.objc, h.disc⟩⟩
    | error c => dsimp only; split <;> exact ⟨rfl, h⟩

theorem registerName_rew {t : Ty} {s s' : LState} (h : EqRew s s') : EqRew (registerName W t s) (registerName W t s') := by
  unfold registerName
  rw [h.frefs]
  repeat' split
  all_goals try exact h
  exact ⟨h.idx, rfl, h.objc, h.disc⟩

theorem EqRew.loadResolve (v : Val) (t : Ty) : Sim EqRew (loadResolve W C v t) (loadResolve W C v t) := by
  intro s s' h
  unfold TL.loadResolve
  simp only [M.bind_apply, M.get_apply, h.idx]
  cases aget s'.idx t with
  | some x => exact ⟨rfl, h⟩
  | none => cases pick W C t with
    | ok x =>
      exact ⟨rfl, registerName_rew (s := { s with idx := aset s.idx t x }) (s' := { s' with idx := aset s'.idx t x })
        ⟨by simp [h.idx], h.frefs, h.objc, h.disc⟩⟩
    | error c => dsimp only; split <;> exact ⟨rfl, h⟩

theorem EqRew.dataclassCached (c : Nat) : Sim EqRew (dataclassCached W C c) (dataclassCached W C c) := by
  intro s s' h
  unfold TL.dataclassCached
  simp only [M.bind_apply, M.get_apply, h.objc]
  cases aget s'.objc c with
  | some x => exact ⟨rfl, h⟩
  | none => exact ⟨rfl, ⟨h.idx, h.frefs, by simp [h.objc], h.disc⟩⟩

theorem EqRew.discCached (hw : W.NoHiddenLiteral) (ts : List Ty) : Sim EqRew (discCached W ts) (discCached W ts) := by
  intro s s' h
  unfold TL.discCached
  simp only [M.bind_apply, M.get_apply, h.disc]
  cases aget s'.disc (.union (W.unionKey ts)) with
  | some x => exact ⟨rfl, h⟩
  | none =>
    simp only [M.bind_apply, M.modify_apply, M.pure_apply]
    exact ⟨mkDisc_rew hw _ _ _, ⟨h.idx, h.frefs, h.objc, by simp only; rw [h.disc, mkDisc_rew hw s.tdRew s'.tdRew]⟩⟩

theorem EqRew.tupHandler (t : Ty) : Sim EqRew (tupHandler W C t) (tupHandler W C t) := by
  intro s s' h
  unfold TL.tupHandler
  simp only [M.bind_apply, M.get_apply, h.idx]
  cases aget s'.idx t with
  | some x => exact ⟨rfl, h⟩
  | none => cases pick W C t <;> exact ⟨rfl, h⟩

/-- One step of the syntax-directed proof of `Sim EqRew`. -/
macro "rew1" : tactic => `(tactic| first
  | exact Sim.pure _ | exact Sim.throw _ | exact EqRew.resolve _ _ | exact EqRew.loadResolve _ _
  | exact EqRew.dataclassCached _ | exact EqRew.tupHandler _
  | assumption
  | refine Sim.bind ?_ (fun _ => ?_) | refine Sim.rescue ?_ (fun _ => ?_)
  | refine Sim.handle ?_ (fun _ => ?_) (fun _ => ?_) | split)

theorem EqRew.dictValueHandler (v : Val) (t vt : Ty) (k : Handler) :
    Sim EqRew (dictValueHandler W C v t vt k) (dictValueHandler W C v t vt k) := by
  unfold TL.dictValueHandler
  refine EqRew.sim_get_bind (fun s s' h => ?_)
  rw [h.idx]; repeat' rew1

theorem EqRew.unionOrder (hw : W.NoHiddenLiteral) (v : Val) (ts : List Ty) :
    Sim EqRew (unionOrder W C v ts) (unionOrder W C v ts) := by
  unfold TL.unionOrder; repeat' (first | exact EqRew.discCached hw _ | rew1)
end

section handlers
variable {rec : Rec} (hrec : ∀ h v t, Sim EqRew (rec h v t) (rec h v t))
include hrec

theorem EqRew.loadWith (v : Val) (t : Ty) (a : Option Annotation) :
    Sim EqRew (loadWith W C rec v t a) (loadWith W C rec v t a) := by
  unfold TL.loadWith; repeat' (first | exact hrec _ _ _ | rew1)

theorem EqRew.forwardrefload (v : Val) (t : Ty) : Sim EqRew (forwardrefload W C rec v t) (forwardrefload W C rec v t) := by
  unfold TL.forwardrefload
  split
  · refine EqRew.sim_get_bind (fun s s' h => ?_)
    rw [h.frefs]
    repeat' (first | exact EqRew.loadWith hrec _ _ _ | rew1)
  · rew1

theorem EqRew.iterElem (h : Handler) (et : Ty) (x : Val) : Sim EqRew (iterElem C rec h et x) (iterElem C rec h et x) := by
  unfold TL.iterElem; repeat' (first | exact hrec _ _ _ | rew1)

theorem EqRew.iterElems (h : Handler) (k : SeqKind) (et : Ty) (v : Val) (t : Ty) (xs : List Val) :
    ∀ i acc, Sim EqRew (iterElems W C rec h k et v t xs i acc) (iterElems W C rec h k et v t xs i acc) := by
  induction xs with
  | nil => intro i acc; exact Sim.pure _
  | cons x xs ih =>
    intro i acc; unfold TL.iterElems
    repeat' (first | exact EqRew.iterElem hrec _ _ _ | exact ih _ _ | rew1)

theorem EqRew.iterload (k : SeqKind) (v : Val) (t : Ty) : Sim EqRew (iterload W C rec k v t) (iterload W C rec k v t) := by
  unfold TL.iterload
  repeat' (first | exact EqRew.iterElems hrec _ _ _ _ _ _ _ _ | rew1)

theorem EqRew.tupElems (v : Val) (t : Ty) (xs : List Val) :
    ∀ us i, Sim EqRew (tupElems W C rec v t xs us i) (tupElems W C rec v t xs us i) := by
  induction xs with
  | nil => intro us i; unfold TL.tupElems; exact Sim.pure _
  | cons x xs ih =>
    intro us i
    cases us with
    | nil => unfold TL.tupElems; exact Sim.pure _
    | cons u us => unfold TL.tupElems; repeat' (first | exact hrec _ _ _ | exact ih _ _ | rew1)

theorem EqRew.tupleload (v : Val) (t : Ty) : Sim EqRew (tupleload W C rec v t) (tupleload W C rec v t) := by
  unfold TL.tupleload
  repeat' (first | exact EqRew.iterload hrec _ _ _ | exact EqRew.tupElems hrec _ _ _ _ _ | rew1)

theorem EqRew.dictFast (kt vt : Ty) (kf : Handler) (vf : Option Handler) (kvs : List (Val × Val)) :
    ∀ acc, Sim EqRew (dictFast W C rec kt vt kf vf kvs acc) (dictFast W C rec kt vt kf vf kvs acc) := by
  induction kvs with
  | nil => intro acc; exact Sim.pure _
  | cons p kvs ih =>
    intro acc; obtain ⟨k, x⟩ := p; unfold TL.dictFast
    repeat' (first | exact hrec _ _ _ | exact ih _ | rew1)

theorem EqRew.dictSlow (kt vt : Ty) (kvs : List (Val × Val)) :
    ∀ acc, Sim EqRew (dictSlow W C rec kt vt kvs acc) (dictSlow W C rec kt vt kvs acc) := by
  induction kvs with
  | nil => intro acc; exact Sim.pure _
  | cons p kvs ih =>
    intro acc; obtain ⟨k, x⟩ := p; unfold TL.dictSlow
    repeat' (first | exact EqRew.loadWith hrec _ _ _ | exact ih _ | rew1)

theorem EqRew.dictload (v : Val) (t : Ty) : Sim EqRew (dictload W C rec v t) (dictload W C rec v t) := by
  unfold TL.dictload
  repeat' (first | exact EqRew.dictFast hrec _ _ _ _ _ _ | exact EqRew.dictSlow hrec _ _ _ _ | exact EqRew.dictValueHandler _ _ _ _ | rew1)

theorem EqRew.objFields (info : ObjInfo) (v : Val) (t : Ty) (kvs : List (Val × Val)) :
    ∀ acc, Sim EqRew (objFields W C rec info v t kvs acc) (objFields W C rec info v t kvs acc) := by
  induction kvs with
  | nil => intro acc; exact Sim.pure _
  | cons p kvs ih =>
    intro acc; obtain ⟨k, x⟩ := p; unfold TL.objFields
    repeat' (first | exact hrec _ _ _ | exact ih _ | rew1)

theorem EqRew.objloader (info : ObjInfo) (v : Val) (c : Nat) :
    Sim EqRew (objloader W C rec info v c) (objloader W C rec info v c) := by
  unfold TL.objloader
  repeat' (first | exact EqRew.objFields hrec _ _ _ _ _ | rew1)

theorem EqRew.typeddictload (hw : W.NotRequiredLaw) (v : Val) (t : Ty) :
    Sim EqRew (typeddictload W C rec v t) (typeddictload W C rec v t) := by
  unfold TL.typeddictload
  split
  · split
    · refine EqRew.sim_get_bind (fun s s' h => ?_)
      refine Sim.bind ?_ (fun _ => ?_)
      · intro s s' h
        refine ⟨rfl, ?_⟩
        unfold rewriteAnnotations
        repeat' split
        all_goals exact ⟨h.idx, h.frefs, h.objc, h.disc⟩
      · rw [typeddictInfo_rew hw _ _ (s'.tdRew.contains _)]
        exact EqRew.objloader hrec _ _ _
    · rew1
  · rew1

theorem EqRew.unionTry (v : Val) (t : Ty) (us : List Ty) :
    ∀ c r es, Sim EqRew (unionTry W C rec v t us c r es) (unionTry W C rec v t us c r es) := by
  induction us with
  | nil => intro c r es; exact Sim.pure _
  | cons u us ih =>
    intro c r es; unfold TL.unionTry
    repeat' (first | exact hrec _ _ _ | exact ih _ _ _ | rew1)

theorem EqRew.unionload (hw : W.NoHiddenLiteral) (v : Val) (t : Ty) :
    Sim EqRew (unionload W C rec v t) (unionload W C rec v t) := by
  unfold TL.unionload
  repeat' (first | exact EqRew.unionTry hrec _ _ _ _ _ _ | exact EqRew.unionOrder hw _ _ | rew1)

theorem EqRew.enumHints (v : Val) (e : Nat) (us : List Ty) :
    ∀ es, Sim EqRew (enumHints W C rec v e us es) (enumHints W C rec v e us es) := by
  induction us with
  | nil => intro es; exact Sim.throw _
  | cons u us ih =>
    intro es; unfold TL.enumHints
    repeat' (first | exact EqRew.loadWith hrec _ _ _ | exact ih _ | rew1)

theorem EqRew.step (h1 : W.NotRequiredLaw) (h2 : W.NoHiddenLiteral) (h : Handler) (v : Val) (t : Ty) :
    Sim EqRew (step W C rec h v t) (step W C rec h v t) := by
  unfold TL.step
  split
  · unfold noneload; repeat' rew1
  · exact EqRew.unionload hrec h2 _ _
  · unfold basicload; repeat' rew1
  · unfold enumload; repeat' (first | exact EqRew.enumHints hrec _ _ _ _ | rew1)
  · exact EqRew.tupleload hrec _ _
  · exact EqRew.iterload hrec _ _ _
  · exact EqRew.dictload hrec _ _
  · exact EqRew.iterload hrec _ _ _
  · exact EqRew.iterload hrec _ _ _
  · unfold namedtupleload; repeat' (first | exact EqRew.objloader hrec _ _ _ | rew1)
  · unfold dataclassload mangleOrRaise; repeat' (first | exact EqRew.objloader hrec _ _ _ | rew1)
  · exact EqRew.forwardrefload hrec _ _
  · unfold literalload; repeat' rew1
  · exact EqRew.typeddictload hrec h1 _ _
  · unfold datetimeload; repeat' rew1
  · unfold patternload; repeat' rew1
  · unfold timedeltaload; repeat' rew1
  · unfold strconstructload; repeat' rew1
  · unfold attrload mangleOrRaise; repeat' (first | exact EqRew.objloader hrec _ _ _ | rew1)
  · exact Sim.pure _
  · unfold newtypeload; repeat' (first | exact EqRew.loadWith hrec _ _ _ | rew1)
  · exact Sim.script (EqRew.loadWith hrec) _
end handlers

theorem run_rew (h1 : W.NotRequiredLaw) (h2 : W.NoHiddenLiteral) (n : Nat) :
    ∀ h v t, Sim EqRew (run W C n h v t) (run W C n h v t) := by
  induction n with
  | zero => intro h v t s s' _; trivial
  | succ n ih => exact fun h v t => EqRew.step ih h1 h2 h v t

theorem load_rew (h1 : W.NotRequiredLaw) (h2 : W.NoHiddenLiteral) (n : Nat) (v : Val) (t : Ty) :
    Sim EqRew (load W C n v t) (load W C n v t) := EqRew.loadWith (run_rew h1 h2 n) v t none

end TL
