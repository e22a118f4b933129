import Verif.Props.Objects
/-!
# The keys of the data of a class: C19, C20, C22, C29, C30
-/

namespace TL

variable {W : World} {C : Config}

/-- The key is the data key of a field of the class. -/
def KnownKey (W : World) (C : Config) (c : Nat) (k : Val) : Prop :=
  ∃ f ∈ (W.cls c).fields, k = .str (extName C (W.cls c).kind f)

instance (c : Nat) (k : Val) : Decidable (KnownKey W C c k) := by unfold KnownKey; infer_instance

/-! ## Lemmas on renaming -/

theorem isFieldKey_iff {names : List String} {k : Val} : isFieldKey names k = true ↔ ∃ n ∈ names, k = .str n := by
  cases k <;> simp [isFieldKey]

theorem isFieldKey_pyEq {names : List String} {k k' : Val} (h : pyEq k k' = true) : isFieldKey names k = isFieldKey names k' := by
  cases hk : strKey k with
  | some n =>
    rw [strKey_eq] at hk; subst hk
    rw [pyEq_str_left] at h; rw [h]
  | none =>
    cases hk' : strKey k' with
    | some n =>
      rw [strKey_eq] at hk'; subst hk'
      rw [pyEq_str_right] at h; rw [h]
    | none =>
      cases k <;> cases k' <;> simp [strKey] at hk hk' <;> simp [isFieldKey]

theorem filter_dset {names : List String} (l : List (Val × Val)) (k x : Val) :
    (dset l k x).filter (fun p => isFieldKey names p.1) =
      if isFieldKey names k then dset (l.filter (fun p => isFieldKey names p.1)) k x
      else l.filter (fun p => isFieldKey names p.1) := by
  induction l with
  | nil => cases h : isFieldKey names k <;> simp [dset, h]
  | cons p l ih =>
    obtain ⟨a, b⟩ := p
    simp only [dset]
    by_cases hp : pyEq a k = true
    · rw [if_pos hp]
      have := isFieldKey_pyEq (names := names) hp
      cases h : isFieldKey names k with
      | true => simp [h, this, dset, hp]
      | false => simp [h, this]
    · rw [if_neg hp]
      cases ha : isFieldKey names a with
      | true =>
        rw [List.filter_cons_of_pos (by simpa using ha), List.filter_cons_of_pos (by simpa using ha), ih]
        cases h : isFieldKey names k with
        | true => simp [dset, hp]
        | false => simp
      | false =>
        rw [List.filter_cons_of_neg (by simpa using ha), List.filter_cons_of_neg (by simpa using ha), ih]

section
variable {c : Nat} (hw : WFNames C (W.cls c).kind (W.cls c).fields)
include hw

/-- Without `failonextra` renaming always works, and commutes with dropping the unknown keys. -/
theorem mangleLoop_filter (kvs : List (Val × Val)) : ∀ acc : List (Val × Val), ∃ r,
    mangleLoop (transformsOf (renamed C (W.cls c).kind) (W.cls c).fields []) false kvs acc = .ok r ∧
    mangleLoop (transformsOf (renamed C (W.cls c).kind) (W.cls c).fields []) false (kvs.filter (fun p => KnownKey W C c p.1))
      (acc.filter (fun p => isFieldKey ((W.cls c).fields.map (·.name)) p.1)) =
      .ok (r.filter (fun p => isFieldKey ((W.cls c).fields.map (·.name)) p.1)) := by
  induction kvs with
  | nil => intro acc; exact ⟨acc, rfl, rfl⟩
  | cons p kvs ih =>
    obtain ⟨k, x⟩ := p
    intro acc
    cases hk : strKey k with
    | none =>
      have h1 : ¬ KnownKey W C c k := by rintro ⟨f, _, rfl⟩; simp [strKey] at hk
      have h2 : isFieldKey ((W.cls c).fields.map (·.name)) k = false := by cases k <;> simp [strKey, isFieldKey] at hk ⊢
      rw [mangleLoop_other _ _ hk, List.filter_cons_of_neg (by simpa using h1)]
      obtain ⟨r, h3, h4⟩ := ih (dset acc k x)
      rw [filter_dset, h2] at h4
      exact ⟨r, h3, by simpa using h4⟩
    | some n =>
      rw [strKey_eq] at hk; subst hk
      by_cases hkn : KnownKey W C c (.str n)
      · obtain ⟨f, hf, hfn⟩ := hkn
        cases hfn
        have hfate := keyFate_ext hw hf
        have hmem : isFieldKey ((W.cls c).fields.map (·.name)) (.str f.name) = true :=
          isFieldKey_iff.2 ⟨f.name, List.mem_map.2 ⟨f, hf, rfl⟩, rfl⟩
        rw [List.filter_cons_of_pos (by simpa using ⟨f, hf, rfl⟩), mangleLoop_str]
        simp only [mangleLoop_str]
        obtain ⟨r, h3, h4⟩ := ih (dset acc (.str f.name) x)
        rw [filter_dset, hmem] at h4
        cases hr : renamed C (W.cls c).kind f with
        | some m => rw [hfate, hr]; exact ⟨r, h3, h4⟩
        | none =>
          have : extName C (W.cls c).kind f = f.name := by simp [extName, hr]
          rw [hfate, hr]; simp only [Option.isSome_none, Bool.false_eq_true, if_false]
          rw [this]; exact ⟨r, h3, h4⟩
      · rw [List.filter_cons_of_neg (by simpa using hkn), mangleLoop_str]
        have hno : ∀ f ∈ (W.cls c).fields, extName C (W.cls c).kind f ≠ n := fun f hf he => hkn ⟨f, hf, by rw [he]⟩
        rcases keyFate_other hw hno with ⟨h1, _⟩ | ⟨h1, h2⟩
        · rw [h1]; exact ih acc
        · rw [h1]
          obtain ⟨r, h3, h4⟩ := ih (dset acc (.str n) x)
          have : isFieldKey ((W.cls c).fields.map (·.name)) (.str n) = false := by
            rw [Bool.eq_false_iff]; intro h
            obtain ⟨m, hm, he⟩ := isFieldKey_iff.1 h
            cases he
            obtain ⟨f, hf, hfn⟩ := List.mem_map.1 hm
            exact h2 f hf hfn
          rw [filter_dset, this] at h4
          exact ⟨r, h3, by simpa using h4⟩
end

/-! ## C19 -/

/-- The two errors are the same but for the data they mention: same class, same description, same type, same
sub-exceptions, and traces visiting the same types through the same fields, indexes and keys. -/
def SameError (e e' : Exc) : Prop :=
  e.cls = e'.cls ∧ e.msg = e'.msg ∧ e.ty = e'.ty ∧ e.subs = e'.subs ∧
    e.trace.map (fun i => (i.ty, i.ann)) = e'.trace.map (fun i => (i.ty, i.ann))

theorem SameError.refl (e : Exc) : SameError e e := ⟨rfl, rfl, rfl, rfl, rfl⟩
theorem SameError.mk (c : ExcClass) (m : Msg) (v v' : Val) (t : Ty) : SameError (mkExc c m v t) (mkExc c m v' t) := ⟨rfl, rfl, rfl, rfl, rfl⟩
theorem SameError.push {e e' : Exc} (h : SameError e e') (v v' : Val) (t : Ty) (a : Option Annotation) :
    SameError (e.push ⟨v, t, a⟩) (e'.push ⟨v', t, a⟩) := by
  obtain ⟨h1, h2, h3, h4, h5⟩ := h
  exact ⟨by simp [h1], by simp [h2], by simp [h3], by simp [h4], by simp [h5]⟩
theorem SameError.isTL {e e' : Exc} (h : SameError e e') : e.isTL = e'.isTL := by unfold Exc.isTL; rw [h.1]
theorem SameError.loadExc {e e' : Exc} (h : SameError e e') (v v' : Val) (t : Ty) (a : Option Annotation) :
    SameError (loadExc v t a e) (loadExc v' t a e') := by
  unfold TL.loadExc; rw [h.isTL]; split
  · exact h.push _ _ _ _
  · exact SameError.refl _

/-- The same outcome, up to the data mentioned in errors. -/
def SameRes : Res LState Exc Val → Res LState Exc Val → Prop
  | .ok r s, .ok r' s' => r = r' ∧ s = s'
  | .err e s, .err e' s' => SameError e e' ∧ s = s'
  | .div, .div => True
  | _, _ => False

theorem SameRes.refl (x : Res LState Exc Val) : SameRes x x := by
  cases x
  · exact ⟨rfl, rfl⟩
  · exact ⟨SameError.refl _, rfl⟩
  · trivial

/-- The same outcome of two computations. -/
def SameM {α : Type} (m m' : L α) (s : LState) : Prop :=
  match m s, m' s with
  | .ok r s, .ok r' s' => r = r' ∧ s = s'
  | .err e s, .err e' s' => SameError e e' ∧ s = s'
  | .div, .div => True
  | _, _ => False

theorem SameM.refl {α : Type} (m : L α) (s : LState) : SameM m m s := by
  unfold SameM
  cases m s
  · exact ⟨rfl, rfl⟩
  · exact ⟨SameError.refl _, rfl⟩
  · trivial

theorem SameM.bind {α β : Type} {m m' : L α} {f f' : α → L β} {s : LState} (h : SameM m m' s)
    (hf : ∀ a s, SameM (f a) (f' a) s) : SameM (m >>= f) (m' >>= f') s := by
  unfold SameM at *
  simp only [M.bind_apply]
  cases h1 : m s <;> cases h2 : m' s <;> rw [h1, h2] at h <;> try (exact h.elim)
  · obtain ⟨rfl, rfl⟩ := h; exact hf _ _
  · exact h
  · trivial

theorem SameM.rescue {α : Type} {m m' : L α} {f f' : Exc → L α} {s : LState} (h : SameM m m' s)
    (hf : ∀ e e' s, SameError e e' → SameM (f e) (f' e') s) : SameM (M.rescue m f) (M.rescue m' f') s := by
  unfold SameM at *
  simp only [M.catch_apply]
  cases h1 : m s <;> cases h2 : m' s <;> rw [h1, h2] at h <;> try (exact h.elim)
  · exact h
  · obtain ⟨h, rfl⟩ := h; exact hf _ _ _ h
  · trivial

theorem SameM.throw {α : Type} {e e' : Exc} (h : SameError e e') (s : LState) : SameM (M.throw e : L α) (M.throw e') s := ⟨h, rfl⟩

theorem SameM.resolve (t : Ty) {e e' : Exc} (h : SameError e e') (s : LState) : SameM (resolve W C t e) (resolve W C t e') s := by
  unfold SameM TL.resolve
  simp only [M.bind_apply, M.get_apply]
  cases aget s.idx t with
  | some x => exact ⟨rfl, rfl⟩
  | none => cases pick W C t with
    | ok x => exact ⟨rfl, rfl⟩
    | error x =>
      dsimp only
      by_cases hx : x.isValue = true
      · rw [if_pos hx, if_pos hx]; exact ⟨h, rfl⟩
      · rw [if_neg hx, if_neg hx]; exact ⟨SameError.refl _, rfl⟩

theorem SameM.objFields {rec : Rec} {info : ObjInfo} {v v' : Val} {t : Ty} (kvs : List (Val × Val)) :
    ∀ (acc : List (String × Val)) (s : LState),
    SameM (objFields W C rec info v t kvs acc) (objFields W C rec info v' t (kvs.filter (fun p => isFieldKey info.fields p.1)) acc) s := by
  induction kvs with
  | nil => intro acc s; exact SameM.refl _ _
  | cons p kvs ih =>
    obtain ⟨k, x⟩ := p
    intro acc s
    cases hk : isFieldKey info.fields k with
    | false => rw [List.filter_cons_of_neg (by simpa using hk), objFields_other _ _ _ _ hk]; exact ih acc s
    | true =>
      rw [List.filter_cons_of_pos (by simpa using hk)]
      obtain ⟨n, hn, rfl⟩ := isFieldKey_iff.1 hk
      rw [objFields_field _ _ _ _ hn, objFields_field _ _ _ _ hn]
      cases aget info.hints n with
      | none => exact SameM.refl _ _
      | some ft =>
        dsimp only
        refine SameM.bind (SameM.resolve ft (SameError.mk _ _ v v' ft) s) (fun h s => ?_)
        refine SameM.bind (SameM.rescue (SameM.refl _ _) (fun e e' s he => ?_)) (fun y s => ih _ s)
        rw [he.isTL]; split
        · exact SameM.throw (he.push _ _ _ _) s
        · exact SameM.throw he s

theorem dhas_filter {names : List String} {n : String} (hn : n ∈ names) (kvs : List (Val × Val)) :
    dhas (kvs.filter (fun p => isFieldKey names p.1)) (.str n) = dhas kvs (.str n) := by
  rw [Bool.eq_iff_iff, dhas_str, dhas_str, mem_strKeys, mem_strKeys]
  constructor
  · rintro ⟨x, hx⟩; exact ⟨x, (List.mem_filter.1 hx).1⟩
  · rintro ⟨x, hx⟩; exact ⟨x, List.mem_filter.2 ⟨hx, isFieldKey_iff.2 ⟨n, hn, rfl⟩⟩⟩

theorem SameM.objloader {rec : Rec} {info : ObjInfo} {c : Nat} (hfoe : C.failonextra = false) (hi : InfoFor W C c info)
    (kvs : List (Val × Val)) (s : LState) :
    SameM (objloader W C rec info (.dict kvs) c) (objloader W C rec info (.dict (kvs.filter (fun p => isFieldKey info.fields p.1))) c) s := by
  unfold TL.objloader objItems
  dsimp only
  have hnames : ∀ n ∈ info.necessary, n ∈ info.fields := by
    intro n hn
    obtain ⟨f, hf, rfl, _⟩ := hi.nec_sub n hn
    rw [hi.fields]; exact List.mem_map.2 ⟨f, hf, rfl⟩
  have h1 : info.necessary.all (fun n => dhas (kvs.filter (fun p => isFieldKey info.fields p.1)) (.str n)) =
      info.necessary.all (fun n => dhas kvs (.str n)) := by
    rw [Bool.eq_iff_iff, List.all_eq_true, List.all_eq_true]
    constructor
    · intro h n hn; rw [← dhas_filter (hnames n hn)]; exact h n hn
    · intro h n hn; rw [dhas_filter (hnames n hn)]; exact h n hn
  have h2 : info.necessary.filter (fun n => !dhas (kvs.filter (fun p => isFieldKey info.fields p.1)) (.str n)) =
      info.necessary.filter (fun n => !dhas kvs (.str n)) := by
    apply List.filter_congr
    intro n hn; rw [dhas_filter (hnames n hn)]
  rw [h1, h2]
  split
  · exact ⟨SameError.mk _ _ _ _ _, rfl⟩
  · simp only [hfoe, Bool.false_and, Bool.false_eq_true, if_false]
    exact SameM.bind (SameM.objFields kvs [] s) (fun _ s => SameM.refl _ s)

theorem SameRes.loads {s : LState} {v v' : Val} {t : Ty} (h : ∀ n, SameRes (load W C n v t s) (load W C n v' t s)) (r : Val) (s' : LState) :
    Loads W C s v t r s' ↔ Loads W C s v' t r s' := by
  constructor
  · rintro ⟨n, hn⟩
    have := h n
    rw [hn] at this
    cases h2 : load W C n v' t s with
    | ok a b => rw [h2] at this; obtain ⟨rfl, rfl⟩ := this; exact ⟨n, h2⟩
    | err a b => rw [h2] at this; exact this.elim
    | div => rw [h2] at this; exact this.elim
  · rintro ⟨n, hn⟩
    have := h n
    rw [hn] at this
    cases h2 : load W C n v t s with
    | ok a b => rw [h2] at this; obtain ⟨rfl, rfl⟩ := this; exact ⟨n, h2⟩
    | err a b => rw [h2] at this; exact this.elim
    | div => rw [h2] at this; exact this.elim

theorem SameRes.raises {s : LState} {v v' : Val} {t : Ty} (h : ∀ n, SameRes (load W C n v t s) (load W C n v' t s)) {e : Exc} {s' : LState}
    (hr : Raises W C s v t e s') : ∃ e', Raises W C s v' t e' s' ∧ SameError e e' := by
  obtain ⟨n, hn⟩ := hr
  have := h n
  rw [hn] at this
  cases h2 : load W C n v' t s with
  | ok a b => rw [h2] at this; exact this.elim
  | err a b => rw [h2] at this; obtain ⟨h3, rfl⟩ := this; exact ⟨a, ⟨n, h2⟩, h3⟩
  | div => rw [h2] at this; exact this.elim

theorem SameRes.symm {x y : Res LState Exc Val} (h : SameRes x y) : SameRes y x := by
  cases x <;> cases y <;> simp only [SameRes] at h ⊢ <;> try exact h.elim
  · exact ⟨h.1.symm, h.2.symm⟩
  · obtain ⟨⟨a, b, c, d, e⟩, f⟩ := h; exact ⟨⟨a.symm, b.symm, c.symm, d.symm, e.symm⟩, f.symm⟩

/-- From the handler to the load. -/
theorem SameRes.of_handler {s : LState} (hc : Coh W C s) {v v' : Val} {t : Ty} {h : Handler} (hp : pick W C t = .ok h)
    (hs : ∀ n, SameM (run W C n h v t) (run W C n h v' t) (cacheReg W t h s)) (n : Nat) :
    SameRes (load W C n v t s) (load W C n v' t s) := by
  rw [load_eq hc, load_eq hc, hp]
  dsimp only
  have := hs n
  unfold SameM at this
  cases h1 : run W C n h v t (cacheReg W t h s) <;> cases h2 : run W C n h v' t (cacheReg W t h s) <;>
    rw [h1, h2] at this <;> try (exact this.elim)
  · exact this
  · exact ⟨this.1.loadExc _ _ _ _, this.2⟩
  · trivial

theorem same_unknown {c : Nat} (hd : C.Usual W (.obj c)) (hfoe : C.failonextra = false) {s : LState} (hc : Coh W C s)
    (hw : WFNames C (W.cls c).kind (W.cls c).fields) (kvs : List (Val × Val)) (n : Nat) :
    SameRes (load W C n (.dict kvs) (.obj c) s) (load W C n (.dict (kvs.filter (fun p => KnownKey W C c p.1))) (.obj c) s) := by
  have hp := hd.obj
  refine SameRes.of_handler hc hp (fun n => ?_) n
  cases n with
  | zero => trivial
  | succ n =>
    have hc' := hc.ext (cacheReg_ext (W := W) (s := s) hp)
    by_cases ha : (W.cls c).kind = .attrs → ∃ hints, attrHints (W.cls c).fields = .ok hints
    · obtain ⟨info, s1, hi, _, heq⟩ := objhandler_eq hc' ha
      unfold SameM
      rw [heq, heq]
      change SameM _ _ s1
      have hmg : ∃ k1, mangleOrRaise C info.transforms (.dict kvs) (.obj c) = pure (.dict k1) ∧
          mangleOrRaise C info.transforms (.dict (kvs.filter (fun p => KnownKey W C c p.1))) (.obj c) =
            pure (.dict (k1.filter (fun p => isFieldKey info.fields p.1))) := by
        by_cases htr : info.transforms = []
        · refine ⟨kvs, by rw [htr]; rfl, ?_⟩
          rw [htr, mangleOrRaise_nil]
          have : kvs.filter (fun p => KnownKey W C c p.1) = kvs.filter (fun p => isFieldKey info.fields p.1) := by
            apply List.filter_congr
            intro p _
            rw [Bool.eq_iff_iff, decide_eq_true_eq, isFieldKey_iff, hi.fields]
            have hr : ∀ f ∈ (W.cls c).fields, extName C (W.cls c).kind f = f.name := by
              intro f hf
              cases hr : renamed C (W.cls c).kind f with
              | none => simp [extName, hr]
              | some m =>
                have := (transforms_aget hw m f.name).2 ⟨f, hf, hr, rfl⟩
                rw [← hi.transforms, htr] at this; cases this
            constructor
            · rintro ⟨f, hf, h⟩; exact ⟨f.name, List.mem_map.2 ⟨f, hf, rfl⟩, by rw [h, hr f hf]⟩
            · rintro ⟨m, hm, h⟩
              obtain ⟨f, hf, rfl⟩ := List.mem_map.1 hm
              exact ⟨f, hf, by rw [h, hr f hf]⟩
          rw [this]
        · obtain ⟨r, h1, h2⟩ := mangleLoop_filter hw kvs []
          rw [← hi.transforms] at h1 h2
          have hemp : info.transforms.isEmpty = false := by simpa using htr
          refine ⟨r, ?_, ?_⟩
          · unfold mangleOrRaise mangle_names
            simp only [hemp, items, hfoe, h1]; rfl
          · unfold mangleOrRaise mangle_names
            rw [hi.fields]
            simp only [hemp, items, hfoe]
            rw [show ([] : List (Val × Val)) = ([] : List (Val × Val)).filter (fun p => isFieldKey ((W.cls c).fields.map (·.name)) p.1) from rfl, h2]
            rfl
      obtain ⟨k1, h1, h2⟩ := hmg
      rw [h1, h2]
      exact SameM.objloader hfoe hi k1 s1
    · simp only [Classical.not_imp] at ha
      obtain ⟨hk, hh⟩ := ha
      rw [hk]
      have : ∀ v, run W C (n + 1) .attrload v (.obj c) = M.throw (.plain .stopIteration) := by
        intro v
        show attrload W C (run W C n) v (.obj c) = _
        rw [attrload_eq _ hk]
        cases h : attrHints (W.cls c).fields with
        | ok hints => exact absurd ⟨hints, h⟩ hh
        | error x => rw [attrHints_error _ _ h]
      show SameM (run W C (n + 1) .attrload _ _) (run W C (n + 1) .attrload _ _) _
      rw [this, this]
      exact SameM.refl _ _

/-- **C19** Without `failonextra`, removing from the data all keys that are not the data key of a field changes nothing: the load
returns the same object ... -/
theorem C19_same_result {c : Nat} (hd : C.Usual W (.obj c)) (hfoe : C.failonextra = false) {s : LState} (hs : Reachable W C s)
    (hw : WFNames C (W.cls c).kind (W.cls c).fields) (kvs : List (Val × Val)) (r : Val) (s' : LState) :
    Loads W C s (.dict kvs) (.obj c) r s' ↔ Loads W C s (.dict (kvs.filter (fun p => KnownKey W C c p.1))) (.obj c) r s' :=
  SameRes.loads (same_unknown hd hfoe hs.coh hw kvs) r s'

/-- **C19** ... or raises the same error (up to the data it mentions), and leaves the loader in the same state. -/
theorem C19_same_error {c : Nat} (hd : C.Usual W (.obj c)) (hfoe : C.failonextra = false) {s : LState} (hs : Reachable W C s)
    (hw : WFNames C (W.cls c).kind (W.cls c).fields) (kvs : List (Val × Val)) :
    (∀ e s', Raises W C s (.dict kvs) (.obj c) e s' →
      ∃ e', Raises W C s (.dict (kvs.filter (fun p => KnownKey W C c p.1))) (.obj c) e' s' ∧ SameError e e') ∧
    (∀ e s', Raises W C s (.dict (kvs.filter (fun p => KnownKey W C c p.1))) (.obj c) e s' →
      ∃ e', Raises W C s (.dict kvs) (.obj c) e' s' ∧ SameError e e') :=
  ⟨fun _ _ h => SameRes.raises (same_unknown hd hfoe hs.coh hw kvs) h,
   fun _ _ h => SameRes.raises (fun n => (same_unknown hd hfoe hs.coh hw kvs n).symm) h⟩

/-- The unknown keys of this dictionary include the Python name of the renamed field. -/
example : ([(Val.str "x", Val.int 1), (.str "z", .str "no"), (.int 3, .none), (.str "zed", .str "q")].filter
    (fun p => KnownKey Sample.W Sample.C 0 p.1)) = [(.str "x", .int 1), (.str "zed", .str "q")] := by decide

/-! ## C20 -/

theorem mem_dset_self (l : List (Val × Val)) (k x : Val) : ∃ p ∈ dset l k x, pyEq p.1 k = true ∨ p.1 = k := by
  induction l with
  | nil => exact ⟨(k, x), by simp [dset], Or.inr rfl⟩
  | cons q l ih =>
    obtain ⟨a, b⟩ := q
    simp only [dset]
    by_cases hp : pyEq a k = true
    · rw [if_pos hp]; exact ⟨(a, x), by simp, Or.inl hp⟩
    · rw [if_neg hp]; obtain ⟨p, h1, h2⟩ := ih; exact ⟨p, by simp [h1], h2⟩

theorem mem_dset_keep (l : List (Val × Val)) (k x : Val) {p : Val × Val} (hp : p ∈ l) : ∃ q ∈ dset l k x, q.1 = p.1 := by
  induction l with
  | nil => cases hp
  | cons q l ih =>
    obtain ⟨a, b⟩ := q
    simp only [dset]
    by_cases hk : pyEq a k = true
    · rw [if_pos hk]
      rcases List.mem_cons.1 hp with rfl | hp
      · exact ⟨(a, x), by simp, rfl⟩
      · exact ⟨p, by simp [hp], rfl⟩
    · rw [if_neg hk]
      rcases List.mem_cons.1 hp with rfl | hp
      · exact ⟨(a, b), by simp, rfl⟩
      · obtain ⟨q, h1, h2⟩ := ih hp; exact ⟨q, by simp [h1], h2⟩

theorem mangleLoop_keeps (tr : List (String × String)) (foe : Bool) (kvs : List (Val × Val)) :
    ∀ (acc r : List (Val × Val)), mangleLoop tr foe kvs acc = .ok r → ∀ p ∈ acc, ∃ q ∈ r, q.1 = p.1 := by
  induction kvs with
  | nil => intro acc r h p hp; cases h; exact ⟨p, hp, rfl⟩
  | cons p kvs ih =>
    obtain ⟨a, x⟩ := p
    intro acc r h p hp
    have step : ∀ k y, mangleLoop tr foe kvs (dset acc k y) = .ok r → ∃ q ∈ r, q.1 = p.1 := by
      intro k y h
      obtain ⟨q, h1, h2⟩ := mem_dset_keep acc k y hp
      obtain ⟨q', h3, h4⟩ := ih _ r h q h1
      exact ⟨q', h3, by rw [h4, h2]⟩
    cases hs : strKey a with
    | none => rw [mangleLoop_other _ _ hs] at h; exact step _ _ h
    | some n =>
      rw [strKey_eq] at hs; subst hs
      rw [mangleLoop_str] at h
      cases hf : keyFate tr n with
      | kept => rw [hf] at h; exact step _ _ h
      | renamedTo p => rw [hf] at h; exact step _ _ h
      | dropped =>
        rw [hf] at h
        cases foe with
        | true => simp at h
        | false => simp only [Bool.false_eq_true, if_false] at h; exact ih _ r h p hp

section
variable {c : Nat} (hw : WFNames C (W.cls c).kind (W.cls c).fields)
include hw

/-- With `failonextra`, an unknown key survives renaming, if renaming works at all. -/
theorem mangleLoop_extra {k x : Val} (hk : ¬ KnownKey W C c k) (kvs : List (Val × Val)) : ∀ (acc r : List (Val × Val)), (k, x) ∈ kvs →
    mangleLoop (transformsOf (renamed C (W.cls c).kind) (W.cls c).fields []) true kvs acc = .ok r →
    ∃ p ∈ r, isFieldKey ((W.cls c).fields.map (·.name)) p.1 = false := by
  induction kvs with
  | nil => intro acc r h; cases h
  | cons p kvs ih =>
    obtain ⟨a, y⟩ := p
    intro acc r hm h
    rcases List.mem_cons.1 hm with he | hm'
    · cases he
      have step : isFieldKey ((W.cls c).fields.map (·.name)) k = false →
          mangleLoop (transformsOf (renamed C (W.cls c).kind) (W.cls c).fields []) true kvs (dset acc k x) = .ok r →
          ∃ p ∈ r, isFieldKey ((W.cls c).fields.map (·.name)) p.1 = false := by
        intro hf h
        obtain ⟨q, h1, h2⟩ := mem_dset_self acc k x
        obtain ⟨q', h3, h4⟩ := mangleLoop_keeps _ _ _ _ _ h q h1
        refine ⟨q', h3, ?_⟩
        rw [h4]
        rcases h2 with h2 | h2
        · rw [isFieldKey_pyEq h2, hf]
        · rw [h2, hf]
      cases hs : strKey k with
      | none =>
        rw [mangleLoop_other _ _ hs] at h
        exact step (by cases k <;> simp [strKey, isFieldKey] at hs ⊢) h
      | some n =>
        rw [strKey_eq] at hs; subst hs
        rw [mangleLoop_str] at h
        have hno : ∀ f ∈ (W.cls c).fields, extName C (W.cls c).kind f ≠ n := fun f hf he => hk ⟨f, hf, by rw [he]⟩
        rcases keyFate_other hw hno with ⟨h1, _⟩ | ⟨h1, h2⟩
        · rw [h1] at h; simp at h
        · rw [h1] at h
          refine step ?_ h
          rw [Bool.eq_false_iff]; intro hf
          obtain ⟨m, hm, he⟩ := isFieldKey_iff.1 hf
          cases he
          obtain ⟨f, hf, hfn⟩ := List.mem_map.1 hm
          exact h2 f hf hfn
    · cases hs : strKey a with
      | none => rw [mangleLoop_other _ _ hs] at h; exact ih _ r hm' h
      | some n =>
        rw [strKey_eq] at hs; subst hs
        rw [mangleLoop_str] at h
        cases hf : keyFate (transformsOf (renamed C (W.cls c).kind) (W.cls c).fields []) n with
        | kept => rw [hf] at h; exact ih _ r hm' h
        | renamedTo p => rw [hf] at h; exact ih _ r hm' h
        | dropped => rw [hf] at h; simp at h

theorem Mangled.extra {info : ObjInfo} (hi : InfoFor W C c info) (hfoe : C.failonextra = true) {v : Val} {kvs kvs' : List (Val × Val)}
    (hm : Mangled C info.transforms v kvs kvs') {k x : Val} (hk : ¬ KnownKey W C c k) (hmem : (k, x) ∈ kvs) :
    ∃ p ∈ kvs', isFieldKey info.fields p.1 = false := by
  rw [hi.fields]
  rcases hm.2 with ⟨h1, rfl⟩ | ⟨_, _, h2⟩
  · refine ⟨_, hmem, ?_⟩
    rw [Bool.eq_false_iff]; intro h
    obtain ⟨m, hm, he⟩ := isFieldKey_iff.1 h
    obtain ⟨f, hf, hfn⟩ := List.mem_map.1 hm
    dsimp only at he
    apply hk
    refine ⟨f, hf, ?_⟩
    rw [he, ← hfn]
    cases hr : renamed C (W.cls c).kind f with
    | none => simp [extName, hr]
    | some m =>
      have := (transforms_aget hw m f.name).2 ⟨f, hf, hr, rfl⟩
      rw [← hi.transforms, h1] at this; cases this
  · rw [hi.transforms, hfoe] at h2
    exact mangleLoop_extra hw hk kvs [] kvs' hmem h2
end

theorem extra_refused {c : Nat} (hd : C.Usual W (.obj c)) (hfoe : C.failonextra = true) {s : LState} (hcoh : Coh W C s)
    (hw : WFNames C (W.cls c).kind (W.cls c).fields) {v : Val} {kvs : List (Val × Val)} (hdata : DictData C v kvs)
    {k x : Val} (hk : ¬ KnownKey W C c k) (hm : (k, x) ∈ kvs) : ∀ r s', ¬ Loads W C s v (.obj c) r s' := by
  intro r s' h
  obtain ⟨info, kvs1, kvs', params, hi, hmg, _, hex, _⟩ := loads_obj hd hcoh h
  have := hmg.1.unique hdata; subst this
  obtain ⟨p, h1, h2⟩ := hmg.extra hw hi hfoe hk hm
  have := hex hfoe p h1
  rw [h2] at this; cases this

/-- **C20** With `failonextra`, data with a key that is not the data key of a field — including the Python name of a renamed
field, and keys that are not strings — is never loaded into the class. -/
theorem C20_extra_refused {c : Nat} (hd : C.Usual W (.obj c)) (hfoe : C.failonextra = true) {s : LState} (hs : Reachable W C s)
    (hw : WFNames C (W.cls c).kind (W.cls c).fields) {v : Val} {kvs : List (Val × Val)} (hdata : DictData C v kvs)
    {k x : Val} (hk : ¬ KnownKey W C c k) (hm : (k, x) ∈ kvs) : ∀ r s', ¬ Loads W C s v (.obj c) r s' :=
  extra_refused hd hfoe hs.coh hw hdata hk hm

theorem mangleLoop_strs (tr : List (String × String)) (foe : Bool) (kvs : List (Val × Val)) (hk : ∀ p ∈ kvs, (strKey p.1).isSome = true) :
    ∀ (acc r : List (Val × Val)), (∀ p ∈ acc, (strKey p.1).isSome = true) → mangleLoop tr foe kvs acc = .ok r →
      ∀ p ∈ r, (strKey p.1).isSome = true := by
  have hds : ∀ (l : List (Val × Val)) n x, (∀ p ∈ l, (strKey p.1).isSome = true) → ∀ p ∈ dset l (.str n) x, (strKey p.1).isSome = true := by
    intro l n x h
    induction l with
    | nil => intro p hp; simp [dset] at hp; subst hp; rfl
    | cons q l ih =>
      obtain ⟨a, b⟩ := q
      intro p hp
      simp only [dset] at hp
      have ha := h (a, b) (by simp)
      split at hp
      · rcases List.mem_cons.1 hp with rfl | hp
        · exact ha
        · exact h p (by simp [hp])
      · rcases List.mem_cons.1 hp with rfl | hp
        · exact ha
        · exact ih (fun q hq => h q (by simp [hq])) p hp
  induction kvs with
  | nil => intro acc r h h'; cases h'; exact h
  | cons p kvs ih =>
    obtain ⟨a, x⟩ := p
    intro acc r hacc h
    have hk' : ∀ p ∈ kvs, (strKey p.1).isSome = true := fun p hp => hk p (by simp [hp])
    have ha := hk (a, x) (by simp)
    cases hs : strKey a with
    | none => dsimp only at ha; rw [hs] at ha; cases ha
    | some n =>
      rw [strKey_eq] at hs; subst hs
      rw [mangleLoop_str] at h
      cases hf : keyFate tr n with
      | kept => rw [hf] at h; exact ih hk' _ r (hds _ _ _ hacc) h
      | renamedTo p => rw [hf] at h; exact ih hk' _ r (hds _ _ _ hacc) h
      | dropped =>
        rw [hf] at h
        cases foe with
        | true => simp at h
        | false => simp only [Bool.false_eq_true, if_false] at h; exact ih hk' _ r hacc h

/-- The types of the fields of an attrs class can be determined when each field has one. -/
theorem attrHints_total : ∀ fs : List Field, (∀ f ∈ fs, ∃ t, FieldTy .attrs f t) → ∃ h, attrHints fs = .ok h := by
  intro fs
  induction fs with
  | nil => intro _; exact ⟨[], rfl⟩
  | cons f fs ih =>
    intro h
    obtain ⟨hs, hh⟩ := ih (fun g hg => h g (by simp [hg]))
    obtain ⟨t, ht⟩ := h f (by simp)
    simp only [attrHints, hh]
    have hconv : ∀ cv t, f.conv = some cv → FieldTy .attrs f t → ∃ t', convType cv = .ok t' := by
      intro cv t hcv ht
      unfold convType
      by_cases hl : 0 < cv.params.length + (if cv.ret then 1 else 0) ∧ cv.params.length + (if cv.ret then 1 else 0) ≤ 2
      · rw [if_pos hl]
        cases hp : cv.params with
        | cons a l => exact ⟨a, rfl⟩
        | nil =>
          exfalso
          cases ht with
          | declared h => rw [h rfl] at hcv; cases hcv
          | converter cv' _ h4 h5 _ => rw [hcv] at h4; cases h4; rw [hp] at h5; cases h5
          | untyped cv' _ h4 h5 h6 => rw [hcv] at h4; cases h4; rw [hp, h6] at hl; simp at hl
          | manyHints cv' _ h4 h5 => rw [hcv] at h4; cases h4; omega
      · rw [if_neg hl]; exact ⟨_, rfl⟩
    cases hcv : f.conv with
    | none => exact ⟨_, rfl⟩
    | some cv =>
      obtain ⟨t', ht'⟩ := hconv cv t hcv ht
      simp only [ht']; exact ⟨_, rfl⟩

/-- **C20** When all keys are strings, the outcome is a TypedloadValueError (for attrs classes: provided that the types of the
converters can be determined). -/
theorem C20_extra_error {c : Nat} (hd : C.Usual W (.obj c)) (hfoe : C.failonextra = true) {s : LState} (hs : Reachable W C s)
    (hw : WFNames C (W.cls c).kind (W.cls c).fields) {kvs : List (Val × Val)}
    (ha : ∀ f ∈ (W.cls c).fields, (W.cls c).kind = .attrs → ∃ t, FieldTy .attrs f t)
    (hstr : ∀ p ∈ kvs, ∃ n, p.1 = .str n) {k x : Val} (hk : ¬ KnownKey W C c k) (hm : (k, x) ∈ kvs) :
    ∃ e s', Raises W C s (.dict kvs) (.obj c) e s' ∧ e.cls = .tlValue := by
  have hstr' : ∀ p ∈ kvs, (strKey p.1).isSome = true := by
    intro p hp; obtain ⟨n, hn⟩ := hstr p hp; rw [hn]; rfl
  have hints : (W.cls c).kind = .attrs → ∃ hints, attrHints (W.cls c).fields = .ok hints :=
    fun hka => attrHints_total _ (fun f hf => ha f hf hka)
  refine raises_now hd hs.coh hints rfl (fun info s1 hi => ?_)
  rw [M.bind_apply]
  unfold mangleOrRaise
  cases hmg : mangle_names info.transforms (.dict kvs) C.failonextra with
  | error x =>
    obtain ⟨_, ⟨h, _⟩ | ⟨_, rfl, _⟩⟩ := mangle_names_error hmg
    · exact absurd rfl (h kvs)
    · exact ⟨_, rfl, rfl⟩
  | ok v' =>
    have : ∃ kvs', v' = .dict kvs' ∧ Mangled C info.transforms (.dict kvs) kvs kvs' := by
      rcases mangle_names_ok hmg with ⟨h1, rfl⟩ | ⟨k1, k2, h1, rfl, h3⟩
      · exact ⟨kvs, rfl, Or.inl rfl, Or.inl ⟨h1, rfl⟩⟩
      · cases h1; exact ⟨k2, rfl, Or.inl rfl, Or.inr ⟨rfl, h3⟩⟩
    obtain ⟨kvs', rfl, hmd⟩ := this
    obtain ⟨p, h1, h2⟩ := hmd.extra hw hi hfoe hk hm
    have hks : ∀ q ∈ kvs', (strKey q.1).isSome = true := by
      rcases hmd.2 with ⟨_, rfl⟩ | ⟨_, _, h3⟩
      · exact hstr'
      · exact mangleLoop_strs _ _ _ hstr' [] kvs' (fun _ h => (by cases h)) h3
    simp only [M.pure_apply]
    unfold objloader objItems
    dsimp only
    by_cases hnec : (!info.necessary.all (fun n => dhas kvs' (.str n))) = true
    · rw [if_pos hnec]; exact ⟨_, rfl, rfl⟩
    · rw [if_neg hnec]
      have hne : (extraKeys info kvs').isEmpty = false := by
        have : p.1 ∈ extraKeys info kvs' := by
          unfold extraKeys; simp only [List.mem_filter, List.mem_map, Bool.not_eq_true']; exact ⟨⟨p, h1, rfl⟩, h2⟩
        cases he : extraKeys info kvs' with
        | nil => rw [he] at this; cases this
        | cons _ _ => rfl
      have hall : (extraKeys info kvs').all (fun k => typeOf k == .prim .str) = true := by
        rw [List.all_eq_true]
        intro k hk
        unfold extraKeys at hk
        simp only [List.mem_filter, List.mem_map] at hk
        obtain ⟨⟨q, hq, rfl⟩, _⟩ := hk
        have := hks q hq
        cases hs : strKey q.1 with
        | none => rw [hs] at this; cases this
        | some m => rw [strKey_eq] at hs; rw [hs]; rfl
      simp only [hfoe, hne, hall]
      exact ⟨_, rfl, rfl⟩

/-- The hypotheses hold for the sample dataclass with the Python name of its renamed field in the data. -/
example : ¬ KnownKey Sample.W { Sample.C with failonextra := true } 0 (.str "z") ∧
    ∃ e s', Raises Sample.W { Sample.C with failonextra := true } (fresh [])
      (.dict [(.str "x", .int 1), (.str "z", .str "q"), (.str "zed", .str "q")]) (.obj 0) e s' ∧ e.cls = .tlValue :=
  ⟨by decide, _, _, ⟨5, rfl⟩, rfl⟩

/-- **C20** (counterexample to the claim for all keys) With a key that is not a string, the error message itself cannot be
built: the load ends with an AssertionError. -/
theorem C20_non_string_counterexample : ∃ e s', Raises Sample.W { Sample.C with failonextra := true } (fresh [])
    (.dict [(.str "a", .int 1), (.int 3, .none)]) (.obj 1) e s' ∧ e.cls = .assertion := ⟨_, _, ⟨5, rfl⟩, rfl⟩

/-! ## C22 -/

/-- **C22** Renaming alone changes nothing: for a class whose fields are all of type `Any` (so that loading keeps the data), the
object holds in each field exactly what the data holds under the data key of that field.  No hypothesis relates the Python names and the
data names, so they may be permuted among the fields. -/
theorem C22_renaming {s s' : LState} {c : Nat} (hd : C.Usual W (.obj c)) (hda : C.Usual W .any) (hs : Reachable W C s) {v r : Val} {kvs : List (Val × Val)}
    (hk : (W.cls c).kind ≠ .typeddict) (hw : WFNames C (W.cls c).kind (W.cls c).fields) (hdata : DictData C v kvs)
    (hn : (strKeys kvs).Nodup) (hany : ∀ f ∈ (W.cls c).fields, f.ty = .any ∧ f.conv = none)
    (hall : ∀ f ∈ (W.cls c).fields, extName C (W.cls c).kind f ∈ strKeys kvs) (h : Loads W C s v (.obj c) r s') :
    ∃ fs, Built W c fs r ∧
      Zip2 (fun f p => p.1 = f.name ∧ (.str (extName C (W.cls c).kind f), p.2) ∈ kvs) (W.cls c).fields fs := by
  obtain ⟨ls, hz, hb⟩ := C21_fields hd hs hk hw hdata hn h
  refine ⟨_, hb, ?_⟩
  have : ∀ {fs : List Field} {ls : List (List (String × Val))}, Zip2 (FieldFrom W C s (W.cls c).kind kvs) fs ls →
      (∀ f ∈ fs, f ∈ (W.cls c).fields) →
      Zip2 (fun f p => p.1 = f.name ∧ (.str (extName C (W.cls c).kind f), p.2) ∈ kvs) fs ls.flatten := by
    intro fs ls hz
    induction hz with
    | nil => intro _; exact .nil
    | cons h1 _ ih =>
      rename_i f l fs ls _
      intro hsub
      have hf := hsub f (by simp)
      cases h1 with
      | loaded h2 h3 h4 =>
        rename_i x t y
        have ht : t = .any := by
          cases h3 with
          | declared _ => exact (hany f hf).1
          | converter cv _ h5 _ _ => rw [(hany f hf).2] at h5; cases h5
          | untyped => rfl
          | manyHints => rfl
        subst ht
        obtain ⟨s1, s2, he, hl2⟩ := h4
        have hyx : y = x := by
          obtain ⟨n, hh, hp, hr⟩ := (loads_iff (hs.coh.ext he)).1 hl2
          rw [hda.any] at hp; cases hp
          cases n with
          | zero => cases hr
          | succ n => cases hr; rfl
        subst hyx
        exact .cons ⟨rfl, h2⟩ (ih (fun g hg => hsub g (by simp [hg])))
      | default h2 _ => exact absurd (hall f hf) h2
      | unset h2 _ _ => exact absurd (hall f hf) h2
  exact this hz (fun f hf => hf)

/-- A dataclass whose two fields are stored under each other's name. -/
def swappedW : World := { Sample.W with cls := fun _ =>
  { kind := .dataclass, name := "S", fields :=
    [ { name := "a", ty := .any, metadata := [("name", "b")] }, { name := "b", ty := .any, metadata := [("name", "a")] } ] } }

/-- The swap is faithful; the hypotheses of C22 are met. -/
example : WFNames Sample.C (swappedW.cls 0).kind (swappedW.cls 0).fields ∧
    ∃ s', Loads swappedW Sample.C (fresh []) (.dict [(.str "a", .int 1), (.str "b", .int 2)]) (.obj 0)
      (.inst 0 [("a", .int 2), ("b", .int 1)]) s' := ⟨⟨by decide, by decide⟩, _, 5, rfl⟩

/-- **C22** The Python name of a renamed field is not accepted: unless it is the data key of another field, a load where it is
present behaves exactly as if it were absent (and is refused under `failonextra`, see C20). -/
theorem C22_python_name_ignored {c : Nat} (hd : C.Usual W (.obj c)) (hfoe : C.failonextra = false) {s : LState} (hs : Reachable W C s)
    (hw : WFNames C (W.cls c).kind (W.cls c).fields) {f : Field} (hno : ∀ g ∈ (W.cls c).fields, extName C (W.cls c).kind g ≠ f.name)
    (pre post : List (Val × Val)) (x r : Val) (s' : LState) :
    Loads W C s (.dict (pre ++ (.str f.name, x) :: post)) (.obj c) r s' ↔ Loads W C s (.dict (pre ++ post)) (.obj c) r s' := by
  rw [C19_same_result hd hfoe hs hw, C19_same_result hd hfoe hs hw (pre ++ post)]
  have : ¬ KnownKey W C c (.str f.name) := by rintro ⟨g, hg, he⟩; exact hno g hg (Val.str.inj he).symm
  rw [List.filter_append, List.filter_append, List.filter_cons_of_neg (by simpa using this)]

example : ∀ g ∈ (Sample.W.cls 0).fields, extName Sample.C (Sample.W.cls 0).kind g ≠ "z" := by decide

/-- **C22** Without renamed fields the data keys are the field names. -/
theorem C22_no_renaming {c : Nat} (h : ∀ f ∈ (W.cls c).fields, aget f.metadata C.mangleKey = none) :
    ∀ f ∈ (W.cls c).fields, extName C (W.cls c).kind f = f.name := by
  intro f hf
  unfold extName renamed
  rw [h f hf]
  cases (W.cls c).kind <;> rfl

/-! ## C29 -/

theorem SameM.items {info : ObjInfo} {rec : Rec} {c : Nat} {v v' : Val} (h : objItems C v = objItems C v') (hn : objItems C v ≠ none) (s : LState) :
    SameM (TL.objloader W C rec info v c) (TL.objloader W C rec info v' c) s := by
  have : TL.objloader W C rec info v c = TL.objloader W C rec info v' c := by
    unfold TL.objloader
    rw [h]
    cases ho : objItems C v' with
    | none => rw [ho] at h; exact absurd h hn
    | some p => rfl
  rw [this]; exact SameM.refl _ _

/-- Loading a Namespace and loading the dictionary of its attributes into a class without renamed fields. -/
theorem same_namespace_obj {c : Nat} (hd : C.Usual W (.obj c)) (hde : C.dictequivalence = true) {s : LState} (hc : Coh W C s)
    (hren : ∀ f ∈ (W.cls c).fields, renamed C (W.cls c).kind f = none) (fs : List (String × Val)) (n : Nat) :
    SameRes (load W C n (.ns fs) (.obj c) s) (load W C n (.dict (fs.map (fun p => (.str p.1, p.2)))) (.obj c) s) := by
  have hp := hd.obj
  refine SameRes.of_handler hc hp (fun n => ?_) n
  cases n with
  | zero => trivial
  | succ n =>
    have hc' := hc.ext (cacheReg_ext (W := W) (s := s) hp)
    by_cases ha : (W.cls c).kind = .attrs → ∃ hints, attrHints (W.cls c).fields = .ok hints
    · obtain ⟨info, s1, hi, _, heq⟩ := objhandler_eq hc' ha
      unfold SameM
      rw [heq, heq]
      change SameM _ _ s1
      have htr : info.transforms = [] := by rw [hi.transforms]; exact transformsOf_none _ _ hren
      rw [htr, mangleOrRaise_nil, mangleOrRaise_nil]
      show SameM (TL.objloader W C _ info (.ns fs) c) (TL.objloader W C _ info (.dict (fs.map (fun p => (.str p.1, p.2)))) c) s1
      exact SameM.items (v := .ns fs) (v' := .dict _) (by simp [objItems, hde]) (by simp [objItems, hde]) s1
    · simp only [Classical.not_imp] at ha
      obtain ⟨hk, hh⟩ := ha
      rw [hk]
      have : ∀ v, run W C (n + 1) .attrload v (.obj c) = M.throw (.plain .stopIteration) := by
        intro v
        show attrload W C (run W C n) v (.obj c) = _
        rw [attrload_eq _ hk]
        cases h : attrHints (W.cls c).fields with
        | ok hints => exact absurd ⟨hints, h⟩ hh
        | error x => rw [attrHints_error _ _ h]
      show SameM (run W C (n + 1) .attrload _ _) (run W C (n + 1) .attrload _ _) _
      rw [this, this]
      exact SameM.refl _ _

/-- Loading a Namespace and loading the dictionary of its attributes into a dictionary type. -/
theorem same_namespace_dict {kt vt : Ty} (hd : C.Usual W (.dict kt vt)) (hde : C.dictequivalence = true) {s : LState} (hc : Coh W C s)
    (fs : List (String × Val)) (n : Nat) :
    SameRes (load W C n (.ns fs) (.dict kt vt) s) (load W C n (.dict (fs.map (fun p => (.str p.1, p.2)))) (.dict kt vt) s) := by
  refine SameRes.of_handler hc (hd.dict) (fun n => ?_) n
  cases n with
  | zero => trivial
  | succ n =>
    show SameM (dictload W C (run W C n) (.ns fs) (Ty.dict kt vt)) (dictload W C (run W C n) (.dict (fs.map (fun p => (.str p.1, p.2)))) (Ty.dict kt vt)) _
    simp only [dictload]
    refine SameM.bind (SameM.resolve _ (SameError.mk _ _ _ _ _) _) (fun h s => ?_)
    refine SameM.bind ?_ (fun p s => ?_)
    · unfold dictValueHandler
      refine SameM.bind (SameM.refl _ _) (fun s' s => ?_)
      cases aget s'.idx vt with
      | some h => exact SameM.refl _ _
      | none => exact SameM.bind (SameM.resolve _ (SameError.mk _ _ _ _ _) _) (fun h s => SameM.refl _ _)
    · have : dictequivalence C (.ns fs) = dictequivalence C (.dict (fs.map (fun p => (.str p.1, p.2)))) := by
        simp [dictequivalence, hde]
      rw [this]; exact SameM.refl _ _

/-- The types for which the equivalence holds: dictionaries, and classes without renamed fields. -/
def NamespaceTy (W : World) (C : Config) (t : Ty) : Prop :=
  (∃ kt vt, t = .dict kt vt) ∨ ∃ c, t = .obj c ∧ ∀ f ∈ (W.cls c).fields, renamed C (W.cls c).kind f = none

/-- **C29** (partial: classes with renamed fields are excluded, see the counterexample).  With `dictequivalence`, loading a Namespace
gives the same object as loading the dictionary of its attributes, ... -/
theorem C29_namespace_partial {t : Ty} (hd : C.Usual W t) (hde : C.dictequivalence = true) {s : LState} (hs : Reachable W C s)
    (ht : NamespaceTy W C t) (fs : List (String × Val)) (r : Val) (s' : LState) :
    Loads W C s (.ns fs) t r s' ↔ Loads W C s (.dict (fs.map (fun p => (.str p.1, p.2)))) t r s' := by
  rcases ht with ⟨kt, vt, rfl⟩ | ⟨c, rfl, hren⟩
  · exact SameRes.loads (same_namespace_dict hd hde hs.coh fs) r s'
  · exact SameRes.loads (same_namespace_obj hd hde hs.coh hren fs) r s'

/-- **C29** ... or the same error up to the data mentioned. -/
theorem C29_namespace_error_partial {t : Ty} (hd : C.Usual W t) (hde : C.dictequivalence = true) {s : LState} (hs : Reachable W C s)
    (ht : NamespaceTy W C t) (fs : List (String × Val)) :
    (∀ e s', Raises W C s (.ns fs) t e s' → ∃ e', Raises W C s (.dict (fs.map (fun p => (.str p.1, p.2)))) t e' s' ∧ SameError e e') ∧
    (∀ e s', Raises W C s (.dict (fs.map (fun p => (.str p.1, p.2)))) t e s' → ∃ e', Raises W C s (.ns fs) t e' s' ∧ SameError e e') := by
  rcases ht with ⟨kt, vt, rfl⟩ | ⟨c, rfl, hren⟩
  · exact ⟨fun _ _ h => SameRes.raises (same_namespace_dict hd hde hs.coh fs) h,
      fun _ _ h => SameRes.raises (fun n => (same_namespace_dict hd hde hs.coh fs n).symm) h⟩
  · exact ⟨fun _ _ h => SameRes.raises (same_namespace_obj hd hde hs.coh hren fs) h,
      fun _ _ h => SameRes.raises (fun n => (same_namespace_obj hd hde hs.coh hren fs n).symm) h⟩

example : NamespaceTy Sample.W Sample.C (.obj 1) ∧ ∃ s', Loads Sample.W Sample.C (fresh []) (.ns [("a", .str "5")]) (.obj 1)
    (.nt 1 [("a", .int 5), ("b", .str "x")]) s' := ⟨Or.inr ⟨1, rfl, fun _ _ => rfl⟩, _, 5, rfl⟩

/-- **C29** (counterexample for classes with renamed fields) The dictionary is loaded, the Namespace with the same attributes is
refused. -/
theorem C29_renamed_counterexample :
    (∃ r s', Loads Sample.W Sample.C (fresh []) (.dict [(.str "x", .int 1), (.str "zed", .str "q")]) (.obj 0) r s') ∧
    (∃ e s', Raises Sample.W Sample.C (fresh []) (.ns [("x", .int 1), ("zed", .str "q")]) (.obj 0) e s' ∧ e.cls = .tlAttr) :=
  ⟨⟨_, _, 5, rfl⟩, _, _, ⟨5, rfl⟩, rfl⟩

/-- **C29** Without `dictequivalence` a Namespace is refused with TypedloadAttributeError (for dictionary types whose key and value
types are supported, and for classes: attrs classes must have a type or a converter for every attribute, otherwise finding out the
types of the attributes raises first). -/
theorem C29_disabled (hde : C.dictequivalence = false) {s : LState} (hs : Reachable W C s) (fs : List (String × Val)) :
    (∀ kt vt hk hv, C.Usual W (.dict kt vt) → pick W C kt = .ok hk → pick W C vt = .ok hv →
      ∃ e s', Raises W C s (.ns fs) (.dict kt vt) e s' ∧ e.cls = .tlAttr) ∧
    (∀ c, C.Usual W (.obj c) → (∀ f ∈ (W.cls c).fields, (W.cls c).kind = .attrs → ∃ t, FieldTy .attrs f t) →
      ∃ e s', Raises W C s (.ns fs) (.obj c) e s' ∧ e.cls = .tlAttr) := by
  constructor
  · intro kt vt hk hv hd hpk hpv
    have hp := hd.dict
    have hc := hs.coh.ext (cacheReg_ext (W := W) (s := s) hp)
    have : ∃ s1 v', run W C 1 .dictload (.ns fs) (.dict kt vt) (cacheReg W (.dict kt vt) .dictload s) =
        .err (mkExc .tlAttr .wrapped v' (.dict kt vt)) s1 := by
      show ∃ s1 v', dictload W C (run W C 0) (.ns fs) (.dict kt vt) _ = .err (mkExc .tlAttr .wrapped v' (.dict kt vt)) s1
      simp only [dictload]
      rw [M.bind_apply, resolve_eq hc, hpk]
      dsimp only
      have hc1 := hc.ext (cacheIdx_ext hpk)
      have hdv : ∃ p s1, dictValueHandler W C (.ns fs) (.dict kt vt) vt hk
          (cacheIdx kt hk (cacheReg W (.dict kt vt) .dictload s)) = .ok p s1 := by
        unfold dictValueHandler
        simp only [M.bind_apply, M.get_apply]
        cases aget (cacheIdx kt hk (cacheReg W (.dict kt vt) .dictload s)).idx vt with
        | some x => exact ⟨_, _, rfl⟩
        | none => simp only [M.bind_apply, resolve_eq hc1, hpv]; exact ⟨_, _, rfl⟩
      obtain ⟨p, s1, h1⟩ := hdv
      rw [M.bind_apply, h1]
      have hit : items (dictequivalence C (.ns fs)) = none := by simp [dictequivalence, hde, items]
      simp only [hit, M.catch_apply, M.throw_apply]
      exact ⟨s1, _, rfl⟩
    obtain ⟨s1, v', h⟩ := this
    exact ⟨_, s1, (raises_iff hs.coh).2 (Or.inl ⟨1, _, _, hp, h, rfl⟩), rfl⟩
  · intro c hd hk
    refine raises_now hd hs.coh (fun h => attrHints_total _ (fun f hf => hk f hf h)) rfl (fun info s1 hi => ?_)
    rw [M.bind_apply]
    unfold mangleOrRaise
    cases hmg : mangle_names info.transforms (.ns fs) C.failonextra with
    | error x =>
      obtain ⟨_, ⟨_, rfl⟩ | ⟨_, rfl, kvs, _, _, h, _⟩⟩ := mangle_names_error hmg
      · exact ⟨_, rfl, rfl⟩
      · cases h
    | ok v' =>
      rcases mangle_names_ok hmg with ⟨h1, rfl⟩ | ⟨k1, k2, h1, rfl, h3⟩
      · simp only [M.pure_apply]
        unfold objloader objItems
        simp only [hde]
        exact ⟨_, rfl, rfl⟩
      · cases h1

/-! ## C30 -/

/-- **C30** A loaded TypedDict is a dictionary whose keys are distinct declared keys found in the data, each with its value
loaded into the declared type; all declared keys of the data are there, and all required keys. -/
theorem C30_keys {s s' : LState} {c : Nat} (hd : C.Usual W (.obj c)) (hs : Reachable W C s) {v r : Val} {kvs : List (Val × Val)}
    (hk : (W.cls c).kind = .typeddict) (hdata : DictData C v kvs)
    (h : Loads W C s v (.obj c) r s') :
    ∃ ps : List (String × Val), r = .dict (ps.map (fun p => (.str p.1, p.2))) ∧ (ps.map (·.1)).Nodup ∧
      (∀ m y, (m, y) ∈ ps → ∃ f ∈ (W.cls c).fields, f.name = m ∧ ∃ x, (.str m, x) ∈ kvs ∧ AcceptsAs W C s x f.ty y) ∧
      (∀ f ∈ (W.cls c).fields, f.name ∈ strKeys kvs → f.name ∈ ps.map (·.1)) ∧
      (∀ f ∈ (W.cls c).fields, f.required = true → f.notRequired = false → f.name ∈ ps.map (·.1)) := by
  obtain ⟨info, kvs1, kvs', params, hi, hm, hnec, _, hp, hcon⟩ := loads_obj hd hs.coh h
  have := hm.1.unique hdata; subst this
  have htr : info.transforms = [] := by
    rw [hi.transforms, hk]; exact transformsOf_none (ren := renamed C .typeddict) _ _ (fun f _ => rfl)
  have hkv : kvs' = kvs1 := by
    rcases hm.2 with ⟨_, h⟩ | ⟨_, h, _⟩
    · exact h
    · exact absurd htr h
  subst hkv
  unfold construct at hcon
  dsimp only at hcon
  rw [hk] at hcon
  cases hcon
  have hmemf : ∀ f ∈ (W.cls c).fields, f.name ∈ info.fields := by
    intro f hf; rw [hi.fields]; exact List.mem_map.2 ⟨f, hf, rfl⟩
  have hkeys : ∀ m, m ∈ strKeys kvs' → m ∈ info.fields → m ∈ params.map (·.1) := by
    intro m h1 h2
    obtain ⟨x, hx⟩ := mem_strKeys.1 h1
    have := hp.complete m x hx h2
    cases ha : aget params m with
    | none => rw [ha] at this; cases this
    | some y => exact List.mem_map.2 ⟨_, aget_mem ha, rfl⟩
  refine ⟨params, rfl, hp.nodup List.nodup_nil, ?_, ?_, ?_⟩
  · intro m y hmy
    rcases hp.sound m y hmy with h | ⟨x, ft, h1, _, h3, h4⟩
    · cases h
    · obtain ⟨f, hf, hfn, hft⟩ := hi.hints m ft h3
      refine ⟨f, hf, hfn, x, h1, ?_⟩
      have : ft = f.ty := by
        rw [hk] at hft
        cases hft with
        | declared => rfl
        | converter _ h => cases h
        | untyped _ h => cases h
        | manyHints _ h => cases h
      rw [← this]; exact h4
  · intro f hf h1; exact hkeys _ h1 (hmemf f hf)
  · intro f hf h1 h2
    have hr : Required (W.cls c).kind f := by rw [hk]; exact ⟨h1, h2⟩
    have := hi.nec f hf hr (by rw [hk]; decide)
    exact hkeys _ (hnec _ this) (hmemf f hf)

/-- The sample TypedDict: its optional key is absent, an unknown key is not kept. -/
example : (Sample.W.cls 2).kind = .typeddict ∧ ∃ s', Loads Sample.W Sample.C (fresh [])
    (.dict [(.str "u", .none), (.str "k", .str "5")]) (.obj 2) (.dict [(.str "k", .int 5)]) s' := ⟨rfl, _, 5, rfl⟩

end TL
