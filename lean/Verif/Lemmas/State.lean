import Verif.Model.Faults
import Verif.Lemmas.Basic
/-!
# How any call changes the loader state

`Ext W C s s'`: the state only grows, existing entries are never replaced, and new entries are the right ones.
Every handler call, at any type, from any state, and whatever its outcome, satisfies it.
-/

namespace TL

/-- Growth of the mutable state of a loader. -/
structure Ext (W : World) (C : Config) (s s' : LState) : Prop where
  idx_keep : ∀ t h, aget s.idx t = some h → aget s'.idx t = some h
  idx_new : ∀ t h, aget s'.idx t = some h → aget s.idx t = some h ∨ pick W C t = .ok h
  frefs_none : s.frefs = none ↔ s'.frefs = none
  frefs_keep : ∀ fr fr', s.frefs = some fr → s'.frefs = some fr' → ∀ n t, aget fr n = some t → aget fr' n = some t
  frefs_new : ∀ fr fr', s.frefs = some fr → s'.frefs = some fr' → ∀ n t, aget fr' n = some t →
    aget fr n = some t ∨ (W.tyName t = some n ∧ ∃ h, pick W C t = .ok h)
  objc_keep : ∀ c i, aget s.objc c = some i → aget s'.objc c = some i
  objc_new : ∀ c i, aget s'.objc c = some i → aget s.objc c = some i ∨ i = dataclassInfo C (W.cls c)
  disc_keep : ∀ t d, aget s.disc t = some d → aget s'.disc t = some d
  disc_new : ∀ t d, aget s'.disc t = some d → aget s.disc t = some d ∨
    ∃ ts rew, t = .union (W.unionKey ts) ∧ d = mkDisc W rew ts ∧ ∀ c ∈ rew, c ∈ s'.tdRew
  rew_keep : ∀ c ∈ s.tdRew, c ∈ s'.tdRew

variable {W : World} {C : Config}

theorem Ext.refl (s : LState) : Ext W C s s := by
  constructor <;> intros <;> try first | assumption | (left; assumption) | rfl
  all_goals simp_all

theorem Ext.trans {a b c : LState} (h1 : Ext W C a b) (h2 : Ext W C b c) : Ext W C a c where
  idx_keep t h e := h2.idx_keep t h (h1.idx_keep t h e)
  idx_new t h e := (h2.idx_new t h e).elim (h1.idx_new t h) Or.inr
  frefs_none := h1.frefs_none.trans h2.frefs_none
  frefs_keep fr fr' e e' n t h := by
    cases hb : b.frefs with
    | none => rw [h1.frefs_none.2 hb] at e; cases e
    | some fb => exact h2.frefs_keep _ _ hb e' _ _ (h1.frefs_keep _ _ e hb _ _ h)
  frefs_new fr fr' e e' n t h := by
    cases hb : b.frefs with
    | none => rw [h1.frefs_none.2 hb] at e; cases e
    | some fb => exact (h2.frefs_new _ _ hb e' _ _ h).elim (h1.frefs_new _ _ e hb _ _) Or.inr
  objc_keep c i e := h2.objc_keep c i (h1.objc_keep c i e)
  objc_new c i e := (h2.objc_new c i e).elim (h1.objc_new c i) Or.inr
  disc_keep t d e := h2.disc_keep t d (h1.disc_keep t d e)
  disc_new t d e := (h2.disc_new t d e).elim
    (fun h => (h1.disc_new t d h).imp_right
      (fun ⟨ts, rew, ht, hd, hr⟩ => ⟨ts, rew, ht, hd, fun c hc => h2.rew_keep c (hr c hc)⟩)) Or.inr
  rew_keep c hc := h2.rew_keep c (h1.rew_keep c hc)

theorem aget_aset_keep {κ α : Type} [DecidableEq κ] {l : List (κ × α)} {k : κ} {v : α} (hn : aget l k = none) :
    ∀ k' v', aget l k' = some v' → aget (aset l k v) k' = some v' := by
  intro k' v' e; rw [aget_aset]; split
  · rename_i hh; subst hh; rw [hn] at e; cases e
  · exact e

theorem aget_aset_new {κ α : Type} [DecidableEq κ] {l : List (κ × α)} {k : κ} {v : α} :
    ∀ k' v', aget (aset l k v) k' = some v' → aget l k' = some v' ∨ (k' = k ∧ v' = v) := by
  intro k' v' e; rw [aget_aset] at e; split at e
  · rename_i hh; subst hh; cases e; right; exact ⟨rfl, rfl⟩
  · left; exact e

theorem Ext.idx {s : LState} {t : Ty} {h : Handler} (hn : aget s.idx t = none) (hp : pick W C t = .ok h) :
    Ext W C s { s with idx := aset s.idx t h } :=
  { Ext.refl (W := W) (C := C) s with
    idx_keep := aget_aset_keep hn
    idx_new := fun t' h' e => (aget_aset_new t' h' e).imp_right (fun ⟨a, b⟩ => by subst a b; exact hp) }

theorem Ext.register {s : LState} {t : Ty} {h : Handler} (hp : pick W C t = .ok h) :
    Ext W C s (registerName W t s) := by
  unfold registerName
  split
  · exact Ext.refl s
  · rename_i fr hfr
    split
    · exact Ext.refl s
    · rename_i n hn
      split
      · exact Ext.refl s
      · rename_i hnone
        constructor
        all_goals try (intros; first | assumption | (left; assumption))
        · simp [hfr]
        · intro fr1 fr2 e1 e2 m u hm
          rw [hfr] at e1; cases e1; cases e2
          rw [aget_aset]; split
          · rename_i hh; subst hh; rw [hnone] at hm; cases hm
          · exact hm
        · intro fr1 fr2 e1 e2 m u hm
          rw [hfr] at e1; cases e1; cases e2
          rw [aget_aset] at hm; split at hm
          · rename_i hh; subst hh; cases hm; right; exact ⟨hn, h, hp⟩
          · left; exact hm

theorem Ext.objc {s : LState} {c : Nat} (hn : aget s.objc c = none) :
    Ext W C s { s with objc := aset s.objc c (dataclassInfo C (W.cls c)) } :=
  { Ext.refl (W := W) (C := C) s with
    objc_keep := aget_aset_keep hn
    objc_new := fun t' h' e => (aget_aset_new t' h' e).imp_right (fun ⟨a, b⟩ => by subst a b; rfl) }

theorem Ext.disc {s : LState} {ts : List Ty} (hn : aget s.disc (.union (W.unionKey ts)) = none) :
    Ext W C s { s with disc := aset s.disc (.union (W.unionKey ts)) (mkDisc W s.tdRew ts) } :=
  { Ext.refl (W := W) (C := C) s with
    disc_keep := aget_aset_keep hn
    disc_new := fun t' h' e => (aget_aset_new t' h' e).imp_right
      (fun ⟨a, b⟩ => by subst a b; exact ⟨ts, s.tdRew, rfl, rfl, fun _ h => h⟩) }

theorem Ext.rew {s : LState} {c : Nat} : Ext W C s { s with tdRew := c :: s.tdRew } :=
  { Ext.refl (W := W) (C := C) s with
    disc_new := fun _ _ e => Or.inl e
    rew_keep := fun _ h => List.mem_cons_of_mem _ h }

/-- `Pres` for the state growth. -/
abbrev PresE (W : World) (C : Config) {α : Type} (m : L α) : Prop := Pres (Ext W C) m

theorem PresE.pure {α} (a : α) : PresE W C (pure a : L α) := Pres.pure Ext.refl a
theorem PresE.throw {α} (e : Exc) : PresE W C (M.throw e : L α) := Pres.throw Ext.refl e
theorem PresE.bind {α β} {m : L α} {f : α → L β} (hm : PresE W C m) (hf : ∀ a, PresE W C (f a)) :
    PresE W C (m >>= f) := Pres.bind (R := Ext W C) (fun h h' => Ext.trans h h') hm hf
theorem PresE.rescue {α} {m : L α} {f : Exc → L α} (hm : PresE W C m) (hf : ∀ a, PresE W C (f a)) :
    PresE W C (M.rescue m f) := Pres.rescue (R := Ext W C) (fun h h' => Ext.trans h h') hm hf

theorem PresE.handle {α β} {m : L α} {f : α → L β} {g : Exc → L β} (hm : PresE W C m) (hf : ∀ a, PresE W C (f a))
    (hg : ∀ a, PresE W C (g a)) : PresE W C (M.handle m f g) :=
  Pres.handle (R := Ext W C) (fun h h' => Ext.trans h h') hm hf hg
theorem PresE.script {call : Val → Ty → Option Annotation → L Val} (h : ∀ v t a, PresE W C (call v t a)) (p : Script) : PresE W C (p.run call) := by
  induction p with
  | ret v => exact PresE.pure _
  | raise e => exact PresE.throw _
  | call v t a next ih => exact PresE.handle (h v t a) (fun r => ih (.ok r)) (fun e => ih (.error e))
theorem PresE.get : PresE W C (M.get : L LState) := Pres.get Ext.refl

theorem PresE.resolve (t : Ty) (e : Exc) : PresE W C (resolve W C t e) := by
  intro s; unfold TL.resolve
  simp only [post_bind, post_get]
  split
  · simpa using Ext.refl s
  · rename_i hn
    split
    · rename_i hp; simpa using Ext.idx hn hp
    · split <;> simpa using Ext.refl s

theorem PresE.loadResolve (v : Val) (t : Ty) : PresE W C (loadResolve W C v t) := by
  intro s; unfold TL.loadResolve
  simp only [post_bind, post_get]
  split
  · simpa using Ext.refl s
  · rename_i hn
    split
    · rename_i hp; simpa using (Ext.idx hn hp).trans (Ext.register hp)
    · split <;> simpa using Ext.refl s

theorem PresE.dataclassCached (c : Nat) : PresE W C (dataclassCached W C c) := by
  intro s; unfold TL.dataclassCached
  simp only [post_bind, post_get]
  split
  · simpa using Ext.refl s
  · rename_i hn; simpa using Ext.objc hn

theorem PresE.discCached (ts : List Ty) : PresE W C (discCached W ts) := by
  intro s; unfold TL.discCached
  simp only [post_bind, post_get]
  split
  · simpa using Ext.refl s
  · rename_i hn; simpa using Ext.disc hn

/-- One step of the syntax-directed proof of `PresE`. -/
macro "pres1" : tactic => `(tactic| first
  | exact PresE.pure _ | exact PresE.throw _ | exact PresE.resolve _ _ | exact PresE.loadResolve _ _ | exact PresE.get
  | exact PresE.dataclassCached _ | exact PresE.discCached _
  | assumption
  | refine PresE.bind ?_ (fun _ => ?_) | refine PresE.rescue ?_ (fun _ => ?_)
  | refine PresE.handle ?_ (fun _ => ?_) (fun _ => ?_) | split)

theorem PresE.tupHandler (t : Ty) : PresE W C (tupHandler W C t) := by
  unfold TL.tupHandler; repeat' pres1

theorem PresE.dictValueHandler (v : Val) (t vt : Ty) (k : Handler) : PresE W C (dictValueHandler W C v t vt k) := by
  unfold TL.dictValueHandler; repeat' pres1

theorem PresE.unionOrder (v : Val) (ts : List Ty) : PresE W C (unionOrder W C v ts) := by
  unfold TL.unionOrder; repeat' pres1

section handlers
variable {rec : Rec} (hrec : ∀ h v t, PresE W C (rec h v t))
include hrec

theorem PresE.loadWith (v : Val) (t : Ty) (a : Option Annotation) : PresE W C (loadWith W C rec v t a) := by
  unfold TL.loadWith; repeat' (first | exact hrec _ _ _ | pres1)

theorem PresE.forwardrefload (v : Val) (t : Ty) : PresE W C (forwardrefload W C rec v t) := by
  unfold TL.forwardrefload; repeat' (first | exact PresE.loadWith hrec _ _ _ | pres1)

theorem PresE.iterElem (h : Handler) (et : Ty) (x : Val) : PresE W C (iterElem C rec h et x) := by
  unfold TL.iterElem; repeat' (first | exact hrec _ _ _ | pres1)

theorem PresE.iterElems (h : Handler) (k : SeqKind) (et : Ty) (v : Val) (t : Ty) (xs : List Val) :
    ∀ i acc, PresE W C (iterElems W C rec h k et v t xs i acc) := by
  induction xs with
  | nil => intro i acc; exact PresE.pure _
  | cons x xs ih =>
    intro i acc; unfold TL.iterElems
    repeat' (first | exact PresE.iterElem hrec _ _ _ | exact ih _ _ | exact PresE.tupHandler _ | pres1)

theorem PresE.iterload (k : SeqKind) (v : Val) (t : Ty) : PresE W C (iterload W C rec k v t) := by
  unfold TL.iterload
  repeat' (first | exact PresE.iterElems hrec _ _ _ _ _ _ _ _ | pres1)

theorem PresE.tupElems (v : Val) (t : Ty) (xs : List Val) : ∀ us i, PresE W C (tupElems W C rec v t xs us i) := by
  induction xs with
  | nil => intro us i; unfold TL.tupElems; exact PresE.pure _
  | cons x xs ih =>
    intro us i
    cases us with
    | nil => unfold TL.tupElems; exact PresE.pure _
    | cons u us => unfold TL.tupElems; repeat' (first | exact hrec _ _ _ | exact ih _ _ | exact PresE.tupHandler _ | pres1)

theorem PresE.tupleload (v : Val) (t : Ty) : PresE W C (tupleload W C rec v t) := by
  unfold TL.tupleload
  repeat' (first | exact PresE.iterload hrec _ _ _ | exact PresE.tupElems hrec _ _ _ _ _ | pres1)

theorem PresE.dictFast (kt vt : Ty) (kf : Handler) (vf : Option Handler) (kvs : List (Val × Val)) :
    ∀ acc, PresE W C (dictFast W C rec kt vt kf vf kvs acc) := by
  induction kvs with
  | nil => intro acc; exact PresE.pure _
  | cons p kvs ih =>
    intro acc; obtain ⟨k, x⟩ := p; unfold TL.dictFast
    repeat' (first | exact hrec _ _ _ | exact ih _ | pres1)

theorem PresE.dictSlow (kt vt : Ty) (kvs : List (Val × Val)) :
    ∀ acc, PresE W C (dictSlow W C rec kt vt kvs acc) := by
  induction kvs with
  | nil => intro acc; exact PresE.pure _
  | cons p kvs ih =>
    intro acc; obtain ⟨k, x⟩ := p; unfold TL.dictSlow
    repeat' (first | exact PresE.loadWith hrec _ _ _ | exact ih _ | pres1)

theorem PresE.dictload (v : Val) (t : Ty) : PresE W C (dictload W C rec v t) := by
  unfold TL.dictload
  repeat' (first | exact PresE.dictFast hrec _ _ _ _ _ _ | exact PresE.dictSlow hrec _ _ _ _ | exact PresE.dictValueHandler _ _ _ _ | pres1)

theorem PresE.objFields (info : ObjInfo) (v : Val) (t : Ty) (kvs : List (Val × Val)) :
    ∀ acc, PresE W C (objFields W C rec info v t kvs acc) := by
  induction kvs with
  | nil => intro acc; exact PresE.pure _
  | cons p kvs ih =>
    intro acc; obtain ⟨k, x⟩ := p; unfold TL.objFields
    repeat' (first | exact hrec _ _ _ | exact ih _ | pres1)

theorem PresE.objloader (info : ObjInfo) (v : Val) (c : Nat) : PresE W C (objloader W C rec info v c) := by
  unfold TL.objloader
  repeat' (first | exact PresE.objFields hrec _ _ _ _ _ | pres1)

theorem PresE.dataclassload (v : Val) (t : Ty) : PresE W C (dataclassload W C rec v t) := by
  unfold TL.dataclassload mangleOrRaise
  repeat' (first | exact PresE.objloader hrec _ _ _ | pres1)

theorem PresE.attrload (v : Val) (t : Ty) : PresE W C (attrload W C rec v t) := by
  unfold TL.attrload mangleOrRaise
  repeat' (first | exact PresE.objloader hrec _ _ _ | pres1)

theorem PresE.typeddictload (v : Val) (t : Ty) : PresE W C (typeddictload W C rec v t) := by
  unfold TL.typeddictload
  split
  · split
    · refine PresE.bind PresE.get (fun _ => PresE.bind ?_ (fun _ => PresE.objloader hrec _ _ _))
      intro s
      simp only [post_modify, rewriteAnnotations]
      split
      · exact Ext.rew
      · exact Ext.refl s
    · exact PresE.throw _
  · exact PresE.throw _

theorem PresE.unionTry (v : Val) (t : Ty) (us : List Ty) :
    ∀ c r es, PresE W C (unionTry W C rec v t us c r es) := by
  induction us with
  | nil => intro c r es; exact PresE.pure _
  | cons u us ih =>
    intro c r es; unfold TL.unionTry
    repeat' (first | exact hrec _ _ _ | exact ih _ _ _ | pres1)

theorem PresE.unionload (v : Val) (t : Ty) : PresE W C (unionload W C rec v t) := by
  unfold TL.unionload
  repeat' (first | exact PresE.unionTry hrec _ _ _ _ _ _ | exact PresE.unionOrder _ _ | pres1)

theorem PresE.enumHints (v : Val) (e : Nat) (us : List Ty) :
    ∀ es, PresE W C (enumHints W C rec v e us es) := by
  induction us with
  | nil => intro es; exact PresE.throw _
  | cons u us ih =>
    intro es; unfold TL.enumHints
    repeat' (first | exact PresE.loadWith hrec _ _ _ | exact ih _ | pres1)

theorem PresE.step (h : Handler) (v : Val) (t : Ty) : PresE W C (step W C rec h v t) := by
  unfold TL.step
  split
  · unfold noneload; repeat' pres1
  · exact PresE.unionload hrec _ _
  · unfold basicload; repeat' pres1
  · unfold enumload; repeat' (first | exact PresE.enumHints hrec _ _ _ _ | pres1)
  · exact PresE.tupleload hrec _ _
  · exact PresE.iterload hrec _ _ _
  · exact PresE.dictload hrec _ _
  · exact PresE.iterload hrec _ _ _
  · exact PresE.iterload hrec _ _ _
  · unfold namedtupleload; repeat' (first | exact PresE.objloader hrec _ _ _ | pres1)
  · exact PresE.dataclassload hrec _ _
  · exact PresE.forwardrefload hrec _ _
  · unfold literalload; repeat' pres1
  · exact PresE.typeddictload hrec _ _
  · unfold datetimeload; repeat' pres1
  · unfold patternload; repeat' pres1
  · unfold timedeltaload; repeat' pres1
  · unfold strconstructload; repeat' pres1
  · exact PresE.attrload hrec _ _
  · exact PresE.pure _
  · unfold newtypeload; repeat' (first | exact PresE.loadWith hrec _ _ _ | pres1)
  · exact PresE.script (PresE.loadWith hrec) _
end handlers

/-- Every handler call at any depth only grows the state. -/
theorem run_ext (n : Nat) : ∀ h v t, PresE W C (run W C n h v t) := by
  induction n with
  | zero => intro h v t s; trivial
  | succ n ih => exact fun h v t => PresE.step ih h v t

theorem load_ext (n : Nat) (v : Val) (t : Ty) : PresE W C (load W C n v t) :=
  PresE.loadWith (run_ext n) v t none

theorem runFaulty_ext (F : Faults) (n : Nat) : ∀ h v t, PresE W C (runFaulty W C F n h v t) := by
  induction n with
  | zero => intro h v t s; trivial
  | succ n ih =>
    intro h v t s
    unfold runFaulty Post
    dsimp only
    cases F n h v t s with
    | some c => exact Ext.refl s
    | none => exact PresE.step ih h v t s

theorem loadFaulty_ext (F : Faults) (n : Nat) (v : Val) (t : Ty) : PresE W C (loadFaulty W C F n v t) :=
  PresE.loadWith (runFaulty_ext F n) v t none

end TL
