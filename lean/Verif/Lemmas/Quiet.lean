import Verif.Lemmas.Evolve
import Verif.Lemmas.LaxRun
import Verif.Props.Keys
/-!
# Loads that do not raise StopIteration
-/

namespace TL

set_option linter.unusedSectionVars false

/-- The load does not raise StopIteration. -/
def Quiet {α : Type} (m : R α) : Prop := ∀ e u, m () = .err e u → e.cls ≠ .stopIteration

section
variable {α β : Type}

theorem Quiet.pure (a : α) : Quiet (Pure.pure a : R α) := fun e u h => by cases h
theorem Quiet.throw {e : Exc} (h : e.cls ≠ .stopIteration) : Quiet (M.throw e : R α) := fun e' u hm => by cases hm; exact h

theorem Quiet.bind {m : R α} {f : α → R β} (hm : Quiet m) (hf : ∀ a, Quiet (f a)) : Quiet (m >>= f) := by
  intro e u h
  rw [M.bind_apply] at h
  cases hx : m () with
  | ok a v => rw [hx] at h; exact hf a e u h
  | err e' v => rw [hx] at h; cases h; exact hm _ _ hx
  | div => rw [hx] at h; cases h

theorem Quiet.rescue {m : R α} {f : Exc → R α} (hf : ∀ e, (∀ u, m () = .err e u → Quiet (f e))) : Quiet (M.rescue m f) := by
  intro e u h
  unfold M.rescue at h
  cases hx : m () with
  | ok a v => rw [hx] at h; cases h
  | err e' v => rw [hx] at h; exact hf e' v hx e u h
  | div => rw [hx] at h; cases h

theorem Quiet.handle {m : R α} {f : α → R β} {g : Exc → R β} (hf : ∀ a, Quiet (f a)) (hg : ∀ e u, m () = .err e u → Quiet (g e)) : Quiet (M.handle m f g) := by
  intro e u h
  unfold M.handle at h
  cases hx : m () with
  | ok a v => rw [hx] at h; exact hf a e u h
  | err e' v => rw [hx] at h; exact hg e' v hx e u h
  | div => rw [hx] at h; cases h

theorem Quiet.ite {c : Prop} [Decidable c] {a b : R α} (ha : c → Quiet a) (hb : ¬ c → Quiet b) : Quiet (if c then a else b) := by
  split
  · exact ha ‹_›
  · exact hb ‹_›
end

variable {W : World} {C : Config} {Γ : Env} {t0 : Ty}

theorem Exc.isTL_quiet {e : Exc} (h : e.isTL = true) : e.cls ≠ .stopIteration := by
  intro hc; unfold Exc.isTL at h; rw [hc] at h; cases h

theorem ofL_mangle (tr : List (String × String)) (v : Val) (t : Ty) :
    (∃ v', mangle_names tr v C.failonextra = .ok v' ∧ ofL (mangleOrRaise C tr v t) = Pure.pure v') ∨
    (∃ c, mangle_names tr v C.failonextra = .error c) ∧ ∃ e, e.cls ≠ .stopIteration ∧ ofL (mangleOrRaise C tr v t) = M.throw e := by
  cases h : mangle_names tr v C.failonextra with
  | ok v' =>
    left
    refine ⟨v', rfl, ?_⟩
    funext s
    simp only [ofL, mangleOrRaise, h]
    rfl
  | error c =>
    right
    refine ⟨⟨c, rfl⟩, ?_⟩
    rcases mangle_names_err h with rfl | rfl
    · refine ⟨mkExc .tlValue (.py .value) v t, by simp [mkExc], ?_⟩
      funext s
      simp only [ofL, mangleOrRaise, h, ExcClass.isValue]
      rfl
    · refine ⟨mkExc .tlAttr (.py .attr) v t, by simp [mkExc], ?_⟩
      funext s
      simp only [ofL, mangleOrRaise, h, ExcClass.isValue, ExcClass.isAttr]
      rfl

theorem Quiet.raised {α : Type} {c : ExcClass} (h : c ≠ .stopIteration) : Quiet (M.throw (Exc.plain c) : R α) := Quiet.throw (by simpa [Exc.plain] using h)

theorem Quiet.resolve (hd : C.Default) {t : Ty} {e : Exc} (he : e.cls ≠ .stopIteration) : Quiet (Ref.resolve W C t e) := by
  unfold Ref.resolve
  cases hp : TL.pick W C t with
  | ok h => exact .pure _
  | error c =>
    have := pick_error hd hp; subst this
    exact .throw he

theorem elemError_quiet (v : Val) (t : Ty) (i : Nat) (e : Exc) : (elemError v t i e).cls ≠ .stopIteration := by
  unfold elemError
  split
  · rw [Exc.cls_push]; exact Exc.isTL_quiet ‹_›
  · split <;> simp [mkExc, mkExc0]

section
variable {rec : Ref.Rec} (hd : C.Default)
include hd

theorem Quiet.loadWith (x : Val) (t : Ty) (a : Option Annotation) : Quiet (Ref.loadWith W C rec x t a) := by
  refine .bind (.resolve hd (by simp [mkExc])) (fun h => .rescue (fun e u _ => .ite (fun h => .throw ?_) (fun _ => .raised (by simp))))
  rw [Exc.cls_push]; exact Exc.isTL_quiet h

theorem Quiet.iterElems (h : Handler) (k : SeqKind) (et : Ty) (v : Val) (t : Ty) (xs : List Val) : ∀ i acc, Quiet (Ref.iterElems W C rec h k et v t xs i acc) := by
  induction xs with
  | nil => intro i acc; exact .pure _
  | cons x xs ih =>
    intro i acc
    refine .handle (fun y => ?_) (fun e u _ => .ite (fun _ => .pure _) (fun _ => .throw (elemError_quiet _ _ _ _)))
    cases collAdd W k acc y with
    | error c => exact .throw (elemError_quiet _ _ _ _)
    | ok acc' => exact ih _ _

theorem Quiet.iterload (k : SeqKind) (v : Val) (t : Ty) : Quiet (Ref.iterload W C rec k v t) := by
  refine .ite (fun _ => .throw (by simp [mkExc])) (fun _ => ?_)
  cases t with
  | coll _ et =>
    refine .bind (.resolve hd (by simp [mkExc])) (fun h => ?_)
    cases pyIter v with
    | none => exact .throw (by simp [mkExc])
    | some xs => exact .bind (.iterElems hd _ _ _ _ _ _ _ _) (fun _ => .pure _)
  | _ => exact .raised (by simp)

theorem Quiet.tupElems (v : Val) (t : Ty) (xs : List Val) : ∀ us i, Quiet (Ref.tupElems W C rec v t xs us i) := by
  induction xs with
  | nil => intro us i; unfold Ref.tupElems; exact .pure _
  | cons x xs ih =>
    intro us i
    cases us with
    | nil => unfold Ref.tupElems; exact .pure _
    | cons u us =>
      unfold Ref.tupElems
      exact .bind (.rescue (fun e _ _ => .throw (elemError_quiet _ _ _ _))) (fun _ => .bind (ih _ _) (fun _ => .pure _))

theorem Quiet.tupleload (v : Val) (t : Ty) : Quiet (Ref.tupleload W C rec v t) := by
  unfold Ref.tupleload
  split
  · exact .iterload hd _ _ _
  · refine .ite (fun _ => .throw (by simp [mkExc])) (fun _ => ?_)
    cases pyIter v with
    | none => exact .raised (by simp)
    | some xs => exact .ite (fun _ => .throw (by simp [mkExc])) (fun _ => .ite (fun _ => .throw (by simp [mkExc]))
        (fun _ => .bind (.tupElems hd _ _ _ _ _) (fun _ => .pure _)))
  · exact .raised (by simp)

theorem Quiet.part (x : Val) (t : Ty) (a : Annotation) : Quiet (Ref.part W C rec x t a) :=
  .ite (fun _ => .pure _) (fun _ => .loadWith hd _ _ _)

theorem Quiet.pairs (kt vt : Ty) (kvs : List (Val × Val)) : ∀ acc, Quiet (Ref.pairs W C rec kt vt kvs acc) := by
  induction kvs with
  | nil => intro acc; exact .pure _
  | cons p kvs ih =>
    obtain ⟨k, x⟩ := p
    intro acc
    exact .bind (.part hd _ _ _) (fun _ => .bind (.part hd _ _ _) (fun _ => .ite (fun _ => ih _) (fun _ => .raised (by simp))))

theorem Quiet.dictload (v : Val) (t : Ty) : Quiet (Ref.dictload W C rec v t) := by
  unfold Ref.dictload
  split
  · refine .bind (.resolve hd (by simp [mkExc])) (fun _ => .bind (.resolve hd (by simp [mkExc])) (fun _ => .rescue (fun e u hx => ?_)))
    refine .ite (fun _ => .throw (by simp [mkExc])) (fun _ => .throw ?_)
    revert hx
    cases items (dictequivalence C v) with
    | none => intro hx; cases hx; simp [Exc.plain]
    | some kvs => intro hx; exact Quiet.bind (.pairs hd _ _ _ _) (fun _ => .pure _) e u hx
  · exact .raised (by simp)

theorem Quiet.objFields (info : ObjInfo) (v : Val) (t : Ty) (hrec : ∀ n ft h x, aget info.hints n = some ft → pick W C ft = .ok h → Quiet (rec h x ft))
    (kvs : List (Val × Val)) : ∀ acc, Quiet (Ref.objFields W C rec info v t kvs acc) := by
  induction kvs with
  | nil => intro acc; exact .pure _
  | cons p kvs ih =>
    obtain ⟨k, x⟩ := p
    intro acc
    unfold Ref.objFields
    cases k with
    | str n =>
      refine .ite (fun _ => ?_) (fun _ => ih _)
      cases hh : aget info.hints n with
      | none => exact .raised (by simp)
      | some ft =>
        dsimp only
        intro e u h
        rw [M.bind_apply] at h
        unfold Ref.resolve at h
        cases hp : TL.pick W C ft with
        | error c =>
          rw [hp] at h
          have := pick_error hd hp; subst this
          cases h; simp [mkExc, Ref.lookupError, ExcClass.isValue]
        | ok hh' =>
          rw [hp] at h
          refine Quiet.bind (.rescue (fun e u hx => .ite (fun h => .throw ?_) (fun _ => .throw ?_))) (fun _ => ih _) e u h
          · rw [Exc.cls_push]; exact Exc.isTL_quiet h
          · exact hrec n ft hh' x hh hp e u hx
    | _ => exact ih _

omit hd in
theorem fillFields_type {params : List (String × Val)} : ∀ (fl : List Field) e, fillFields params fl = .error e → e = .type := by
  intro fl
  induction fl with
  | nil => intro e h; cases h
  | cons f fl ih =>
    intro e h
    simp only [fillFields] at h
    cases hf : fillField params f with
    | error e' =>
      rw [hf] at h; cases h
      unfold fillField at hf
      cases ha : aget params f.name with
      | some x => rw [ha] at hf; cases hf
      | none =>
        rw [ha] at hf
        cases hd : f.default with
        | some d => rw [hd] at hf; cases hf
        | none =>
          rw [hd] at hf
          cases hi : f.init with
          | false => rw [hi] at hf; cases hf
          | true => rw [hi] at hf; cases hf; rfl
    | ok p =>
      rw [hf] at h
      cases hr : fillFields params fl with
      | error e' => rw [hr] at h; cases h; exact ih _ hr
      | ok ps => rw [hr] at h; cases h

omit hd in
theorem construct_quiet (hW : W.NeverStops) {c : Nat} {ps : List (String × Val)} : construct W c ps ≠ .error .stopIteration := by
  intro h
  have key : (if ps.all (fun p => isInitArg (W.cls c) p.1) then
      match fillFields ps (W.cls c).fields with
      | .error e => .error e
      | .ok fs => (W.initHook c fs).map (.inst c)
    else (.error .type : Except ExcClass Val)) ≠ .error .stopIteration := by
    intro h
    split at h
    · cases hf : fillFields ps (W.cls c).fields with
      | error e => rw [hf] at h; have := fillFields_type _ _ hf; subst this; cases h
      | ok fs =>
        rw [hf] at h
        dsimp only at h
        cases hi : W.initHook c fs with
        | ok a => rw [hi] at h; cases h
        | error e => rw [hi] at h; cases h; exact hW.init _ _ hi
    · cases h
  unfold construct at h
  dsimp only at h
  cases hk : (W.cls c).kind with
  | typeddict => rw [hk] at h; cases h
  | namedtuple =>
    rw [hk] at h
    dsimp only at h
    cases hf : fillFields ps (W.cls c).fields with
    | error e => rw [hf] at h; have := fillFields_type _ _ hf; subst this; cases h
    | ok fs => rw [hf] at h; cases h
  | dataclass => rw [hk] at h; exact key h
  | attrs => rw [hk] at h; exact key h

theorem Quiet.objloader (hW : W.NeverStops) (info : ObjInfo) (v : Val) (c : Nat)
    (hrec : ∀ n ft h x, aget info.hints n = some ft → pick W C ft = .ok h → Quiet (rec h x ft)) : Quiet (Ref.objloader W C rec info v c) := by
  unfold Ref.objloader
  cases objItems C v with
  | none => exact .throw (by simp [mkExc])
  | some p =>
    obtain ⟨v, kvs⟩ := p
    refine .ite (fun _ => .throw (by simp [mkExc])) (fun _ => .ite (fun _ => .ite (fun _ => .throw (by simp [mkExc])) (fun _ => .raised (by simp)))
      (fun _ => .bind (.objFields hd _ _ _ hrec _ _) (fun ps => ?_)))
    cases hc : construct W c ps with
    | ok r => exact .pure _
    | error e =>
      refine .ite (fun _ => .throw (by simp [mkExc0])) (fun _ => .ite (fun _ => .throw (by simp [mkExc0])) (fun _ => .raised ?_))
      rintro rfl
      exact construct_quiet hW hc

theorem Quiet.objMangled (hW : W.NeverStops) (info : ObjInfo) (v : Val) (c : Nat)
    (hrec : ∀ n ft h x, aget info.hints n = some ft → pick W C ft = .ok h → Quiet (rec h x ft)) : Quiet (Ref.objMangled W C rec info v c) := by
  refine .bind ?_ (fun v' => .objloader hd hW _ _ _ hrec)
  rcases ofL_mangle (C := C) info.transforms v (.obj c) with ⟨v', _, he⟩ | ⟨_, e, hne, he⟩
  · rw [he]; exact .pure _
  · rw [he]; exact .throw hne

theorem Quiet.unionOrder (v : Val) (ts : List Ty) : Quiet (Ref.unionOrder W C v ts) := by
  unfold Ref.unionOrder
  split
  · split
    · exact .pure _
    · refine .ite (fun _ => .pure _) (fun _ => .ite (fun _ => ?_) (fun _ => .raised (by simp)))
      split
      · exact .pure _
      · exact .pure _
  · exact .pure _

theorem Quiet.unionTry (v : Val) (t : Ty) (us : List Ty) (hrec : ∀ u ∈ us, ∀ h, pick W C u = .ok h → Quiet (rec h v u)) :
    ∀ c r es, Quiet (Ref.unionTry W C rec v t us c r es) := by
  induction us with
  | nil => intro c r es; exact .pure _
  | cons u us ih =>
    intro c r es
    have ih' := ih (fun w hw => hrec w (by simp [hw]))
    refine .handle (fun x => .ite (fun _ => ih' _ _ _) (fun _ => .pure _)) (fun e w hx => .ite (fun _ => ih' _ _ _) (fun _ => .throw ?_))
    rw [M.bind_apply] at hx
    unfold Ref.resolve at hx
    cases hp : TL.pick W C u with
    | ok h => rw [hp] at hx; exact hrec u (by simp) h hp e w hx
    | error c =>
      rw [hp] at hx
      have := pick_error hd hp; subst this
      cases hx; simp [mkExc, Ref.lookupError, ExcClass.isValue]

theorem Quiet.unionload (v : Val) (ts : List Ty) (hrec : ∀ u ∈ ts, ∀ h, pick W C u = .ok h → Quiet (rec h v u)) :
    Quiet (Ref.unionload W C rec v (.union ts)) := by
  unfold Ref.unionload
  refine .ite (fun _ => .pure _) (fun _ => ?_)
  intro e u h
  rw [M.bind_apply] at h
  cases ho : Ref.unionOrder W C v ts () with
  | div => rw [ho] at h; cases h
  | err e' u' => rw [ho] at h; cases h; exact Quiet.unionOrder hd _ _ _ _ ho
  | ok us u' =>
    rw [ho] at h
    refine Quiet.bind (.unionTry hd v _ us (fun w hw => hrec w ((ref_unionOrder_perm ho).mem_iff.1 hw)) _ _ _) (fun p => ?_) e u h
    exact .ite (fun _ => .pure _) (fun _ => .ite (fun _ => .throw (by simp [mkExcSubs])) (fun _ => .throw (by simp [mkExcSubs])))

theorem Quiet.enumHints (v : Val) (e : Nat) (us : List Ty) : ∀ es, Quiet (Ref.enumHints W C rec v e us es) := by
  induction us with
  | nil => intro es; exact .throw (by simp [mkExcSubs])
  | cons u us ih => intro es; exact .rescue (fun _ _ _ => ih _)
end

theorem Quiet.ofL {α : Type} {m : L α} (h : ∀ e s, m {} = .err e s → e.cls ≠ .stopIteration) : Quiet (TL.ofL m) := by
  intro e u hx
  unfold TL.ofL at hx
  cases hm : m {} with
  | ok a s => rw [hm] at hx; cases hx
  | err e' s => rw [hm] at hx; cases hx; exact h _ _ hm
  | div => rw [hm] at hx; cases hx

theorem toCInts_error {xs : List Val} {e : ExcClass} (h : toCInts xs = .error e) : e ≠ .stopIteration := by
  induction xs generalizing e with
  | nil => cases h
  | cons x xs ih =>
    have h1 : ∀ c, toCInt x = .error c → c ≠ .stopIteration := by
      intro c hc
      unfold toCInt at hc
      split at hc
      · split at hc <;> cases hc
        simp
      · cases hc
      · cases hc; simp
    simp only [toCInts] at h
    cases hx : toCInt x with
    | error c => rw [hx] at h; cases h; exact h1 _ hx
    | ok i =>
      rw [hx] at h
      dsimp only at h
      cases hr : toCInts xs with
      | error c => rw [hr] at h; cases h; exact ih hr
      | ok is => rw [hr] at h; cases h

theorem dtParse_quiet (hW : W.NeverStops) {k : DtKind} {x : Val} : dtParse W k x ≠ .error .stopIteration := by
  have hcall : ∀ xs, dtCall k xs ≠ .error .stopIteration := by
    intro xs h
    unfold dtCall at h
    cases hc : toCInts xs with
    | error e =>
      have := toCInts_error hc
      simp only [hc] at h
      cases k <;> dsimp only at h <;> split at h <;> cases h <;> exact this rfl
    | ok is =>
      simp only [hc] at h
      cases k with
      | date =>
        dsimp only at h
        split at h
        · cases h
        · split at h
          · rename_i heq; cases heq
          · split at h <;> cases h
          · cases h
      | time =>
        dsimp only at h
        split at h
        · cases h
        · split at h <;> cases h
      | datetime =>
        dsimp only at h
        split at h
        · cases h
        · split at h <;> cases h
  intro h
  unfold dtParse at h
  split at h
  · exact hW.iso _ _ h
  · split at h
    · exact hcall _ h
    · cases h

theorem patCompile_quiet (hW : W.NeverStops) {x : Val} : patCompile W x ≠ .error .stopIteration := by
  intro h
  have key : ∀ v, (W.reCompile v).map (fun _ => Val.pattern v) ≠ .error .stopIteration := by
    intro v h
    cases hr : W.reCompile v with
    | ok a => rw [hr] at h; cases h
    | error e => rw [hr] at h; cases h; exact hW.re _ hr
  unfold patCompile at h
  split at h
  · cases h
  · exact key _ h
  · exact key _ h
  · cases h

theorem tdSeconds_quiet (hW : W.NeverStops) {x : Val} : tdSeconds W x ≠ .error .stopIteration := by
  intro h
  unfold tdSeconds at h
  split at h
  · split at h <;> cases h
  · cases h
  · rename_i f
    cases hr : W.tdFloat f with
    | ok a => rw [hr] at h; cases h
    | error e => rw [hr] at h; cases h; exact hW.td _ hr
  · cases h

/-- When the world never raises StopIteration and the converters of attrs classes tell their types, no load raises it. -/
theorem ref_quiet (hd : C.Default) (hW : W.NeverStops)
    (hatt : ∀ c, Uses W Γ t0 (.obj c) → (W.cls c).kind = .attrs → ∀ f ∈ (W.cls c).fields, ∃ t, FieldTy .attrs f t) :
    ∀ n h x t, pick W C t = .ok h → Uses W Γ t0 t → Quiet (Ref.run W C Γ n h x t) := by
  intro n
  induction n with
  | zero => intro h x t _ _ e u hx; cases hx
  | succ n ih =>
    intro h x t hp hu
    have hobj : ∀ c info, t = .obj c → InfoFor W C c info → ∀ k ft h x, aget info.hints k = some ft → pick W C ft = .ok h →
        Quiet (Ref.run W C Γ n h x ft) := by
      rintro c info rfl hi k ft h x hk hp'
      obtain ⟨f, hf, _, hty⟩ := hi.hints _ _ hk
      exact ih h x ft hp' (.field hu hf hty)
    show Quiet (Ref.step W C Γ (Ref.run W C Γ n) h x t)
    cases h with
    | noneload =>
      refine .ofL (fun e s hx => ?_)
      unfold noneload at hx
      split at hx <;> cases hx
      simp [mkExc]
    | unionload =>
      cases t with
      | union ts => exact .unionload hd x ts (fun u hu' h hp' => ih h x u hp' (.union hu hu'))
      | _ => exact .raised (by simp)
    | basicload =>
      refine .ofL (fun e s hx => ?_)
      unfold basicload at hx
      split at hx
      · split at hx
        · cases hc : pyCall W t x with
          | ok r => rw [hc] at hx; cases hx
          | error c =>
            rw [hc] at hx
            dsimp only at hx
            split at hx
            · cases hx; simp [mkExc]
            · split at hx <;> cases hx <;> simp [mkExc]
        · cases hx; simp [mkExc]
      · cases hx
    | enumload =>
      show Quiet (Ref.enumload W C _ x t)
      unfold Ref.enumload
      split
      · split
        · exact .pure _
        · exact .enumHints hd _ _ _ _
      · exact .raised (by simp)
    | tupleload => exact .tupleload hd x t
    | listload => exact .iterload hd _ x t
    | dictload => exact .dictload hd x t
    | setload => exact .iterload hd _ x t
    | frozensetload => exact .iterload hd _ x t
    | namedtupleload =>
      cases t with
      | obj c =>
        refine .ite (fun hk => .objloader hd hW _ _ _ (hobj c _ rfl (infoFor_namedtuple hk))) (fun _ => .raised (by simp))
      | _ => exact .raised (by simp)
    | dataclassload =>
      cases t with
      | obj c =>
        refine .ite (fun hk => .objMangled hd hW _ _ _ (hobj c _ rfl (infoFor_dataclass hk))) (fun _ => .raised (by simp))
      | _ => exact .raised (by simp)
    | typeddictload =>
      cases t with
      | obj c =>
        refine .ite (fun hk => .objloader hd hW _ _ _ (hobj c _ rfl (infoFor_typeddict hk false))) (fun _ => .raised (by simp))
      | _ => exact .raised (by simp)
    | attrload =>
      cases t with
      | obj c =>
        refine .ite (fun hk => ?_) (fun _ => .raised (by simp))
        obtain ⟨hints, hh⟩ := attrHints_total _ (hatt c hu hk)
        rw [hh]
        exact .objMangled hd hW _ _ _ (hobj c _ rfl (infoFor_attrs hk hh))
      | _ => exact .raised (by simp)
    | forwardrefload =>
      show Quiet (Ref.forwardrefload W C Γ _ x t)
      unfold Ref.forwardrefload
      split
      · split
        · exact .throw (by simp [mkExc])
        · split
          · exact .throw (by simp [mkExc])
          · exact .loadWith hd _ _ _
      · exact .raised (by simp)
    | literalload =>
      refine .ofL (fun e s hx => ?_)
      unfold literalload at hx
      split at hx
      · split at hx <;> cases hx
        simp [mkExc]
      · cases hx; simp [Exc.plain]
    | datetimeload =>
      refine .ofL (fun e s hx => ?_)
      unfold datetimeload at hx
      cases t with
      | dt k =>
        dsimp only at hx
        cases hdt : dtParse W k x with
        | ok r => rw [hdt] at hx; cases hx
        | error c =>
          rw [hdt] at hx
          dsimp only at hx
          split at hx
          · cases hx; simp [mkExc]
          · split at hx
            · cases hx; simp [mkExc]
            · cases hx
              simp only [Exc.plain, Exc.cls, ne_eq]
              rintro rfl
              exact dtParse_quiet hW hdt
      | _ => cases hx; simp [Exc.plain]
    | patternload =>
      refine .ofL (fun e s hx => ?_)
      unfold patternload at hx
      cases hc : patCompile W x with
      | ok r => rw [hc] at hx; cases hx
      | error c =>
        rw [hc] at hx
        dsimp only at hx
        split at hx
        · cases hx; simp [mkExc]
        · split at hx
          · cases hx; simp [mkExc]
          · cases hx
            simp only [Exc.plain, Exc.cls, ne_eq]
            rintro rfl
            exact patCompile_quiet hW hc
    | timedeltaload =>
      refine .ofL (fun e s hx => ?_)
      unfold timedeltaload at hx
      cases hc : tdSeconds W x with
      | ok r => rw [hc] at hx; cases hx
      | error c =>
        rw [hc] at hx
        dsimp only at hx
        split at hx
        · cases hx; simp [mkExc]
        · cases hx
          simp only [Exc.plain, Exc.cls, ne_eq]
          rintro rfl
          exact tdSeconds_quiet hW hc
    | strconstructload =>
      refine .ofL (fun e s hx => ?_)
      unfold strconstructload at hx
      cases hc : pyCall W t x with
      | ok r => rw [hc] at hx; cases hx
      | error c =>
        rw [hc] at hx
        dsimp only at hx
        split at hx
        · cases hx; simp [mkExc]
        · split at hx <;> cases hx <;> simp [mkExc]
    | anyload => exact Quiet.ofL (m := TL.anyload x) (fun e s hx => by unfold anyload at hx; cases hx)
    | newtypeload =>
      cases t with
      | newtype m u => exact .loadWith hd _ _ _
      | _ => exact .raised (by simp)
    | custom i =>
      exfalso
      obtain ⟨c, hc⟩ := pick_installed hp
      rw [show C.handlers = defaultHandlers from hd] at hc
      simp [defaultHandlers] at hc

end TL
