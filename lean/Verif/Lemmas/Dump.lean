import Verif.Lemmas.DumpThreads
/-!
# The dumper computes a dumper without caches
-/

namespace TL

variable {W : World} {C : DConfig}

abbrev DSim (W : World) (C : DConfig) {α : Type} (m : M DState Exc α) (m' : M Unit Exc α) : Prop := Sim (fun s (_ : Unit) => DCoh W C s) m m'

theorem DSim.desc (c : Nat) : DSim W C (dataclassDesc W c) (Pure.pure (mkDataDesc W (W.cls c))) := by
  intro s _ hs
  simp only [dataclassDesc, M.bind_apply, M.get_apply]
  cases hd : aget s.dc c with
  | some d => exact ⟨hs.dc c d hd, hs⟩
  | none =>
    refine ⟨rfl, hs.hc, fun c' d h => ?_⟩
    dsimp only at h
    rw [aget_aset] at h
    split at h
    · rename_i e; subst e; cases h; rfl
    · exact hs.dc c' d h

theorem DSim.resolve (hd : C.ByType W) {v : Val} (hv : LegalTop W v) : DSim W C (dResolve W C v) (match dPick W C v with
    | .error e => M.throw e
    | .ok h => Pure.pure h) := by
  intro s _ hs
  simp only [dResolve, M.bind_apply, M.get_apply]
  cases hg : aget s.hc (typeOf v) with
  | some h =>
    rw [hs.hc _ _ hg v hv rfl]
    exact ⟨rfl, hs⟩
  | none =>
    dsimp only
    cases hh : dPick W C v with
    | error e => exact ⟨rfl, hs⟩
    | ok h =>
      refine ⟨rfl, fun t h' h1 w hw ht => ?_, hs.dc⟩
      dsimp only at h1
      rw [aget_aset] at h1
      split at h1
      · rename_i e; cases h1; exact dPick_typeOf hd hv hw (by rw [ht, ← e]) hh
      · exact hs.hc t h' h1 w hw ht

section
variable {rec : DRec DState} {rec' : DRec Unit} (hrec : ∀ v t, Legal W v → DSim W C (rec v t) (rec' v t))
include hrec

theorem DSim.list (xs : List Val) (hl : ∀ x ∈ xs, Legal W x) : DSim W C (dumpList rec xs) (dumpList rec' xs) := by
  induction xs with
  | nil => exact .pure _
  | cons x xs ih =>
    exact .bind (hrec _ _ (hl x (by simp))) (fun _ => .bind (ih (fun x hx => hl x (by simp [hx]))) (fun _ => .pure _))

theorem DSim.dict (kvs : List (Val × Val)) (hl : ∀ p ∈ kvs, Legal W p.1 ∧ Legal W p.2) : ∀ acc,
    DSim W C (dumpDict W rec kvs acc) (dumpDict W rec' kvs acc) := by
  induction kvs with
  | nil => intro acc; exact .pure _
  | cons p kvs ih =>
    intro acc
    obtain ⟨k, x⟩ := p
    refine .bind (hrec _ _ (hl (k, x) (by simp)).1) (fun k' => .bind (hrec _ _ (hl (k, x) (by simp)).2) (fun x' => ?_))
    cases W.hash k' with
    | true => exact ih (fun p hp => hl p (by simp [hp])) _
    | false => exact .throw _

theorem DSim.nt (defaults : List (String × Val)) (fs : List (String × Val)) (hl : ∀ p ∈ fs, Legal W p.2) :
    DSim W C (dumpNt C rec defaults fs) (dumpNt C rec' defaults fs) := by
  induction fs with
  | nil => exact .pure _
  | cons p fs ih =>
    obtain ⟨k, x⟩ := p
    have ih := ih (fun p hp => hl p (by simp [hp]))
    unfold dumpNt
    split
    · exact ih
    · exact .bind (hrec _ _ (hl (k, x) (by simp))) (fun _ => .bind ih (fun _ => .pure _))

theorem DSim.fields (cd : ClassDef) (defaults : List (String × Val)) (hints : List (String × Ty)) (vals : List (String × Val))
    (hl : ∀ p ∈ vals, Legal W p.2) (fs : List String) : ∀ acc,
    DSim W C (dumpFields W C rec cd defaults hints vals fs acc) (dumpFields W C rec' cd defaults hints vals fs acc) := by
  induction fs with
  | nil => intro acc; exact .pure _
  | cons f fs ih =>
    intro acc
    unfold dumpFields
    cases hg : aget vals f with
    | none => exact .throw _
    | some x =>
      dsimp only
      split
      · exact ih _
      · exact .bind (hrec _ _ (hl _ (aget_mem hg))) (fun _ => ih _)

theorem DSim.attrs (vals : List (String × Val)) (hl : ∀ p ∈ vals, Legal W p.2) (fs : List Field) : ∀ acc,
    DSim W C (dumpAttrs C rec vals fs acc) (dumpAttrs C rec' vals fs acc) := by
  induction fs with
  | nil => intro acc; exact .pure _
  | cons f fs ih =>
    intro acc
    unfold dumpAttrs
    cases hg : aget vals f.name with
    | none => exact .throw _
    | some x =>
      dsimp only
      cases f.repr with
      | false => exact ih _
      | true =>
        cases C.hidedefault with
        | false => exact .bind (hrec _ _ (hl _ (aget_mem hg))) (fun _ => ih _)
        | true =>
          cases f.default with
          | none => exact .bind (hrec _ _ (hl _ (aget_mem hg))) (fun _ => ih _)
          | some d =>
            cases hq : pyEq x d with
            | true => simp only [hq]; exact ih _
            | false => simp only [hq]; exact .bind (hrec _ _ (hl _ (aget_mem hg))) (fun _ => ih _)

theorem DSim.script (p : Script) (hp : ∀ x u, p.Asks x u → Legal W x) :
    DSim W C (p.run (fun x u _ => rec x u)) (p.run (fun x u _ => rec' x u)) := by
  induction p with
  | ret v => exact .pure _
  | raise e => exact .throw _
  | call v t a next ih =>
    exact Sim.handle (hrec v t (hp v t .here)) (fun r => ih (.ok r) (fun x u h => hp x u (.later h))) (fun e => ih (.error e) (fun x u h => hp x u (.later h)))

theorem DSim.step (h : DHandler) (v : Val) (t : Ty) (hv : Legal W v)
    (hcu : ∀ i, h = .custom i → ∀ x u, (W.dumpCustom i v t).Asks x u → Legal W x) :
    DSim W C (dstep W C (dataclassDesc W) rec h v t) (dstep W C (fun c => Pure.pure (mkDataDesc W (W.cls c))) rec' h v t) := by
  cases h with
  | identity => exact .pure _
  | namedtuple =>
    cases v with
    | nt c fs => exact .bind (DSim.nt hrec _ _ (fun p hp => hv.inside (.item (n := p.1) .self hp))) (fun _ => .pure _)
    | _ => exact .throw _
  | dataclass =>
    cases v with
    | inst c fs =>
      exact .bind (DSim.desc c) (fun _ => .bind (DSim.fields hrec _ _ _ _ (fun p hp => hv.inside (.attr (n := p.1) .self hp)) _ _) (fun _ => .pure _))
    | _ => exact .throw _
  | iterator =>
    unfold dstep
    dsimp only
    unfold iteratordump
    split
    · exact .pure _
    · refine .bind (DSim.list hrec _ (fun x hx => ?_)) (fun _ => .pure _)
      cases v with
      | seq k xs => exact hv.inside (.elem .self hx)
      | nt c fs =>
        obtain ⟨p, hp, rfl⟩ := List.mem_map.1 hx
        exact hv.inside (.item (n := p.1) .self hp)
      | _ => cases hx
  | enum =>
    cases v with
    | enumv e n =>
      unfold dstep
      dsimp only
      cases hm : aget (W.enm e).members n with
      | none => exact .throw _
      | some x => exact hrec _ _ (hv.inside (.member .self hm))
    | _ => exact .throw _
  | dict =>
    cases v with
    | dict kvs =>
      exact .bind (DSim.dict hrec _ (fun p hp => ⟨hv.inside (.key (x := p.2) .self hp), hv.inside (.val (k := p.1) .self hp)⟩) _) (fun _ => .pure _)
    | _ => exact .throw _
  | attrs =>
    cases v with
    | inst c fs => exact .bind (DSim.attrs hrec _ (fun p hp => hv.inside (.attr (n := p.1) .self hp)) _ _) (fun _ => .pure _)
    | _ => exact .throw _
  | date =>
    unfold dstep
    dsimp only
    unfold datetimedump
    split
    · exact .pure _
    · cases v <;> first | exact .throw _ | exact .pure _ | (dsimp only; split <;> first | exact .throw _ | exact .pure _)
  | timedelta => cases v <;> first | exact .throw _ | exact .pure _
  | pattern => cases v <;> first | exact .throw _ | exact .pure _
  | str => exact .pure _
  | custom i => exact DSim.script hrec _ (hcu i rfl)
end

theorem DSim.dump (hd : C.ByType W) (n : Nat) : ∀ v t, Legal W v → DSim W C (dump W C n v t) (Ref.dump W C n v t) := by
  induction n with
  | zero => intro v t _ s s' _; trivial
  | succ n ih =>
    intro v t hv
    unfold TL.dump Ref.dump
    intro s _ hs
    have hres := DSim.resolve hd hv.top s () hs
    cases hp : dPick W C v with
    | error e =>
      rw [hp] at hres
      rw [M.bind_apply]
      cases hr : dResolve W C v s with
      | ok a s' => rw [hr] at hres; exact hres.elim
      | err e' s' => rw [hr] at hres; exact hres
      | div => rw [hr] at hres; exact hres.elim
    | ok h =>
      rw [hp] at hres
      rw [M.bind_apply]
      cases hr : dResolve W C v s with
      | ok a s' =>
        rw [hr] at hres
        obtain ⟨rfl, hc⟩ := hres
        obtain ⟨p, hm, hpe⟩ := dPick_mem hp
        exact DSim.step ih a v t hv (fun i hi x u ha => hd.asks p hm i (hpe.trans hi) v t hv x u ha) s' () hc
      | err e' s' => rw [hr] at hres; exact hres.elim
      | div => rw [hr] at hres; exact hres.elim

theorem DConfig.Retuned.evalCond {C C' : DConfig} (h : C.Retuned C') (c : DCond) (v : Val) : dEvalCond W C' c v = dEvalCond W C c v := by
  cases c <;> simp [dEvalCond, h.basictypes, h.strconstructed, DConfig.isBasic]

theorem DConfig.Retuned.indexFrom {C C' : DConfig} (h : C.Retuned C') (v : Val) (hs : List (DCond × DHandler)) :
    ∀ k, dIndexFrom W C' v hs k = dIndexFrom W C v hs k := by
  induction hs with
  | nil => intro k; rfl
  | cons p hs ih =>
    intro k
    obtain ⟨c, f⟩ := p
    unfold dIndexFrom
    rw [h.evalCond, h.raiseconditionerrors, ih]

/-- The options that may be changed do not influence which handler is chosen. -/
theorem DConfig.Retuned.pick {C C' : DConfig} (h : C.Retuned C') (v : Val) : dPick W C' v = dPick W C v := by
  unfold dPick dIndex
  rw [h.handlers, h.indexFrom]

theorem DConfig.Retuned.coh {C C' : DConfig} (h : C.Retuned C') {s : DState} : DCoh W C s ↔ DCoh W C' s := by
  constructor
  · rintro ⟨h1, h2⟩
    exact ⟨fun t f e v hv ht => by rw [h.pick]; exact h1 t f e v hv ht, h2⟩
  · rintro ⟨h1, h2⟩
    exact ⟨fun t f e v hv ht => by rw [← h.pick (C' := C')]; exact h1 t f e v hv ht, h2⟩

theorem DConfig.Retuned.byType {C C' : DConfig} (h : C.Retuned C') (hb : C.ByType W) : C'.ByType W where
  cond p hp v w hv hw ht := by rw [h.evalCond, h.evalCond]; exact hb.cond p (h.handlers ▸ hp) v w hv hw ht
  asks p hp := hb.asks p (h.handlers ▸ hp)

theorem DConfig.Retuned.symm {C C' : DConfig} (h : C.Retuned C') : C'.Retuned C := ⟨h.1.symm, h.2.symm, h.3.symm, h.4.symm⟩
theorem DConfig.Retuned.trans {C C' C'' : DConfig} (h : C.Retuned C') (h' : C'.Retuned C'') : C.Retuned C'' :=
  ⟨h'.1.trans h.1, h'.2.trans h.2, h'.3.trans h.3, h'.4.trans h.4⟩

/-- The states of a dumper are those of the dumper with other options. -/
theorem DReachable.retune {C C' : DConfig} (hcc : C.Retuned C') {s : DState} (h : DReachable W C s) : DReachable W C' s := by
  induction h with
  | new => exact .new
  | dumped _ h hv hl ih => exact ih.dumped (hcc.symm.trans h) hv hl
  | raised _ h hv hl ih => exact ih.raised (hcc.symm.trans h) hv hl
  | shared jobs _ h hv hl ih => exact ih.shared jobs (hcc.symm.trans h) hv hl

theorem DReachable.coh' (hd : C.ByType W) {s : DState} (hs : DReachable W C s) : DCoh W C s := by
  induction hs with
  | new => exact .new
  | @dumped C' s s' v t r _ hr hl h ih =>
    obtain ⟨n, h⟩ := h
    have := DSim.dump (hr.byType hd) n v t hl s () (hr.coh.1 ih)
    rw [h] at this
    cases hx : Ref.dump W C' n v t () <;> rw [hx] at this <;> first | exact this.elim | exact hr.coh.2 this.2
  | @raised C' s s' v t e _ hr hl h ih =>
    obtain ⟨n, h⟩ := h
    have := DSim.dump (hr.byType hd) n v t hl s () (hr.coh.1 ih)
    rw [h] at this
    cases hx : Ref.dump W C' n v t () <;> rw [hx] at this <;> first | exact this.elim | exact hr.coh.2 this.2
  | shared jobs _ hr hl h ih => exact hr.coh.2 ((hr.coh.1 ih).shared (hr.byType hd) hl h)

/-- A dumper computes the dumper without caches. -/
theorem dump_ref_byType (hd : C.ByType W) {s : DState} (hs : DReachable W C s) {v : Val} (hv : Legal W v) (t : Ty) (n : Nat) :
    (∀ r, (∃ s', dump W C n v t s = .ok r s') ↔ Ref.dump W C n v t () = .ok r ()) ∧
    (∀ e, (∃ s', dump W C n v t s = .err e s') ↔ Ref.dump W C n v t () = .err e ()) ∧
    (dump W C n v t s = .div ↔ Ref.dump W C n v t () = .div) := by
  have key := DSim.dump hd n v t hv s () (hs.coh' hd)
  cases ha : dump W C n v t s <;> cases hb : Ref.dump W C n v t () <;> rw [ha, hb] at key <;> first | exact key.elim | skip
  · obtain ⟨rfl, _⟩ := key; simp
  · obtain ⟨rfl, _⟩ := key; simp
  · simp

theorem dumps_ref_byType (hd : C.ByType W) {s : DState} (hs : DReachable W C s) {v : Val} (hv : Legal W v) (t : Ty) (r : Val) :
    (∃ s', Dumps W C s v t r s') ↔ ∃ n, Ref.dump W C n v t () = .ok r () := by
  constructor
  · rintro ⟨s', n, h⟩; exact ⟨n, ((dump_ref_byType hd hs hv t n).1 r).1 ⟨s', h⟩⟩
  · rintro ⟨n, h⟩
    obtain ⟨s', h'⟩ := ((dump_ref_byType hd hs hv t n).1 r).2 h
    exact ⟨s', n, h'⟩

theorem dumpRaises_ref_byType (hd : C.ByType W) {s : DState} (hs : DReachable W C s) {v : Val} (hv : Legal W v) (t : Ty) (e : Exc) :
    (∃ s', DumpRaises W C s v t e s') ↔ ∃ n, Ref.dump W C n v t () = .err e () := by
  constructor
  · rintro ⟨s', n, h⟩; exact ⟨n, ((dump_ref_byType hd hs hv t n).2.1 e).1 ⟨s', h⟩⟩
  · rintro ⟨n, h⟩
    obtain ⟨s', h'⟩ := ((dump_ref_byType hd hs hv t n).2.1 e).2 h
    exact ⟨s', n, h'⟩

theorem DReachable.coh (hd : C.Default) {s : DState} (hs : DReachable W C s) : DCoh W C s := hs.coh' hd.byType

theorem dump_ref (hd : C.Default) {s : DState} (hs : DReachable W C s) {v : Val} (hv : Legal W v) (t : Ty) (n : Nat) :
    (∀ r, (∃ s', dump W C n v t s = .ok r s') ↔ Ref.dump W C n v t () = .ok r ()) ∧
    (∀ e, (∃ s', dump W C n v t s = .err e s') ↔ Ref.dump W C n v t () = .err e ()) ∧
    (dump W C n v t s = .div ↔ Ref.dump W C n v t () = .div) := dump_ref_byType hd.byType hs hv t n

theorem dumps_ref (hd : C.Default) {s : DState} (hs : DReachable W C s) {v : Val} (hv : Legal W v) (t : Ty) (r : Val) :
    (∃ s', Dumps W C s v t r s') ↔ ∃ n, Ref.dump W C n v t () = .ok r () := dumps_ref_byType hd.byType hs hv t r

theorem dumpRaises_ref (hd : C.Default) {s : DState} (hs : DReachable W C s) {v : Val} (hv : Legal W v) (t : Ty) (e : Exc) :
    (∃ s', DumpRaises W C s v t e s') ↔ ∃ n, Ref.dump W C n v t () = .err e () := dumpRaises_ref_byType hd.byType hs hv t e

/-! ## More fuel -/

section
variable {σ : Type} {desc : Nat → M σ Exc DataDesc} {rec rec' : DRec σ} (hrec : ∀ v t, LeM (rec v t) (rec' v t))
include hrec

theorem LeM.dumpList (xs : List Val) : LeM (dumpList rec xs) (dumpList rec' xs) := by
  induction xs with
  | nil => exact .refl _
  | cons x xs ih => exact .bind (hrec _ _) (fun _ => .bind ih (fun _ => .refl _))

theorem LeM.dumpDict (kvs : List (Val × Val)) : ∀ acc, LeM (dumpDict W rec kvs acc) (dumpDict W rec' kvs acc) := by
  induction kvs with
  | nil => intro acc; exact .refl _
  | cons p kvs ih =>
    intro acc
    refine .bind (hrec _ _) (fun _ => .bind (hrec _ _) (fun _ => ?_))
    split
    · exact ih _
    · exact .refl _

theorem LeM.dumpNt (defaults fs : List (String × Val)) : LeM (dumpNt C rec defaults fs) (dumpNt C rec' defaults fs) := by
  induction fs with
  | nil => exact .refl _
  | cons p fs ih =>
    unfold TL.dumpNt
    split
    · exact ih
    · exact .bind (hrec _ _) (fun _ => .bind ih (fun _ => .refl _))

theorem LeM.dumpFields (cd : ClassDef) (defaults : List (String × Val)) (hints : List (String × Ty)) (vals : List (String × Val)) (fs : List String) :
    ∀ acc, LeM (dumpFields W C rec cd defaults hints vals fs acc) (dumpFields W C rec' cd defaults hints vals fs acc) := by
  induction fs with
  | nil => intro acc; exact .refl _
  | cons f fs ih =>
    intro acc
    unfold TL.dumpFields
    split
    · exact .refl _
    · split
      · exact ih _
      · exact .bind (hrec _ _) (fun _ => ih _)

theorem LeM.dumpAttrs (vals : List (String × Val)) (fs : List Field) : ∀ acc, LeM (dumpAttrs C rec vals fs acc) (dumpAttrs C rec' vals fs acc) := by
  induction fs with
  | nil => intro acc; exact .refl _
  | cons f fs ih =>
    intro acc
    unfold TL.dumpAttrs
    split
    · exact .refl _
    · rename_i x _
      cases f.repr with
      | false => exact ih _
      | true =>
        cases C.hidedefault with
        | false => exact .bind (hrec _ _) (fun _ => ih _)
        | true =>
          cases f.default with
          | none => exact .bind (hrec _ _) (fun _ => ih _)
          | some d =>
            cases hq : pyEq x d with
            | true => simp only [hq]; exact ih _
            | false => simp only [hq]; exact .bind (hrec _ _) (fun _ => ih _)

theorem LeM.dstep (h : DHandler) (v : Val) (t : Ty) : LeM (dstep W C desc rec h v t) (dstep W C desc rec' h v t) := by
  unfold TL.dstep
  cases h with
  | namedtuple => cases v <;> first | exact .refl _ | exact .bind (LeM.dumpNt hrec _ _) (fun _ => .refl _)
  | dataclass =>
    cases v <;> first
      | exact .refl _
      | exact .bind (.refl _) (fun _ => .bind (LeM.dumpFields hrec _ _ _ _ _ _) (fun _ => .refl _))
  | iterator =>
    dsimp only
    unfold iteratordump
    split
    · exact .refl _
    · exact .bind (LeM.dumpList hrec _) (fun _ => .refl _)
  | enum =>
    cases v <;> first | exact .refl _ | (dsimp only; split <;> first | exact hrec _ _ | exact .refl _)
  | dict => cases v <;> first | exact .refl _ | exact .bind (LeM.dumpDict hrec _ _) (fun _ => .refl _)
  | attrs => cases v <;> first | exact .refl _ | exact .bind (LeM.dumpAttrs hrec _ _ _) (fun _ => .refl _)
  | custom i => exact LeM.script (fun v t _ => hrec v t) _
  | _ => exact .refl _
end

theorem LeM.refdump_succ (n : Nat) : ∀ v t, LeM (Ref.dump W C n v t) (Ref.dump W C (n + 1) v t) := by
  induction n with
  | zero => intro v t s h; exact absurd rfl h
  | succ n ih =>
    intro v t
    unfold Ref.dump
    split
    · exact .refl _
    · exact LeM.dstep ih _ _ _

theorem LeM.refdump {n m : Nat} (h : n ≤ m) (v : Val) (t : Ty) : LeM (Ref.dump W C n v t) (Ref.dump W C m v t) := by
  induction h with
  | refl => exact .refl _
  | step _ ih => exact ih.trans (LeM.refdump_succ _ v t)

theorem refdump_le {n m : Nat} (h : n ≤ m) {v : Val} {t : Ty} {r : Val} (hr : Ref.dump W C n v t () = .ok r ()) : Ref.dump W C m v t () = .ok r () := by
  rw [LeM.refdump h v t () (by rw [hr]; exact fun h => by cases h), hr]

theorem refdump_det {n m : Nat} {v : Val} {t : Ty} {r r' : Val} (h : Ref.dump W C n v t () = .ok r ()) (h' : Ref.dump W C m v t () = .ok r' ()) :
    r = r' := by
  have h1 := refdump_le (Nat.le_max_left n m) h
  have h2 := refdump_le (Nat.le_max_right n m) h'
  rw [h1] at h2; cases h2; rfl

end TL
