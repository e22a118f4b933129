import Verif.Props.Containers
/-!
# C17: dictionaries

`_dictload` has a fast path and a slow path with exception tracking.  When the handler of the value type is not cached yet the
code assigns it to `key_f` instead of `value_f` (dataloader.py:391-400); the theorems say exactly when this is harmless.
-/

namespace TL

variable {W : World} {C : Config}

/-! ## Specification -/

/-- `x` is an instance of the basic type `t`. -/
def BasicInstance (C : Config) (t : Ty) (x : Val) : Prop := ∃ p, t = .prim p ∧ p ∈ C.basictypes ∧ isInst p x = true

/-- A key or value `x` of the data becomes `y`: instances of basic types are kept, otherwise `y` is what loading `x` into `t`
returned at some moment. -/
def PartLoads (W : World) (C : Config) (s : LState) (t : Ty) (x y : Val) : Prop :=
  (BasicInstance C t x ∧ y = x) ∨ AcceptsAs W C s x t y

/-- A pair of the data becomes a pair of the result. -/
def PairLoads (W : World) (C : Config) (s : LState) (kt vt : Ty) (p q : Val × Val) : Prop :=
  PartLoads W C s kt p.1 q.1 ∧ PartLoads W C s vt p.2 q.2

/-- The dictionary behind a value: a dict, or (unless disabled) a Namespace. -/
def DictData (C : Config) (v : Val) (kvs : List (Val × Val)) : Prop :=
  v = .dict kvs ∨ ∃ fs, v = .ns fs ∧ C.dictequivalence = true ∧ kvs = fs.map (fun p => (.str p.1, p.2))

/-- The dictionary built by assigning the pairs one after the other. -/
def dictOf (ps : List (Val × Val)) : Val := .dict (ps.foldl (fun acc p => dset acc p.1 p.2) [])

/-- The types for which the handler mix-up is harmless: values not of a basic type, or keys and values of basic types other
than None, or keys and values of the same type. -/
def DictSafe (C : Config) (kt vt : Ty) : Prop :=
  C.isBasic vt = false ∨ kt = vt ∨
    (C.isBasic kt = true ∧ C.isBasic vt = true ∧ kt ≠ .prim .none ∧ vt ≠ .prim .none)

/-! ## The comprehensions -/

theorem isInstTy_basic {t : Ty} {x : Val} (h : (C.isBasic t && isInstTy t x) = true) : BasicInstance C t x := by
  cases t <;> simp_all [Config.isBasic, isInstTy]
  exact ⟨_, rfl, h.1, h.2⟩

/-- The pairs were loaded. -/
def PairsOk (W : World) (C : Config) (s : LState) (kt vt : Ty) (kvs acc res : List (Val × Val)) : Prop :=
  ∃ ps, Zip2 (PairLoads W C s kt vt) kvs ps ∧ res = ps.foldl (fun acc p => dset acc p.1 p.2) acc ∧
    ∀ p ∈ ps, W.hash p.1 = true

theorem PairsOk.cons {s : LState} {kt vt : Ty} {k x k' x' : Val} {kvs acc res : List (Val × Val)}
    (h : PairsOk W C s kt vt kvs (dset acc k' x') res) (hk : PartLoads W C s kt k k') (hx : PartLoads W C s vt x x')
    (hh : W.hash k' = true) : PairsOk W C s kt vt ((k, x) :: kvs) acc res := by
  obtain ⟨ps, h1, h2, h3⟩ := h
  refine ⟨(k', x') :: ps, .cons ⟨hk, hx⟩ h1, h2, ?_⟩
  intro p hp
  rcases List.mem_cons.1 hp with rfl | hp
  · exact hh
  · exact h3 p hp

theorem post_part {n : Nat} {t : Ty} {h : Handler} {x : Val} {s0 s : LState} (he : Ext W C s0 s) (hc : Coh W C s)
    (hp : pick W C t = .ok h) (hi : aget s.idx t = some h) :
    Post (if (C.isBasic t && isInstTy t x) = true then pure x else run W C n h x t) s
      (fun y s' => Ext W C s s' ∧ PartLoads W C s0 t x y) (fun _ s' => Ext W C s s') := by
  split
  · rename_i hb; exact ⟨Ext.refl s, Or.inl ⟨isInstTy_basic hb, rfl⟩⟩
  · exact (post_handler he hc hp hi).mono (fun y s' h => ⟨h.1, Or.inr h.2⟩) (fun e s' h => h.1)

theorem dictFast_cons (rec : Rec) (kt vt : Ty) (keyF : Handler) (valF : Option Handler) (k x : Val) (rest acc : List (Val × Val)) :
    dictFast W C rec kt vt keyF valF ((k, x) :: rest) acc =
      ((if (C.isBasic kt && isInstTy kt k) = true then pure k else rec keyF k kt : L Val) >>= fun k' =>
        (if (C.isBasic vt && isInstTy vt x) = true then pure x else
          match valF with
          | some h => rec h x vt
          | none => M.throw (.plain .name) : L Val) >>= fun x' =>
        if W.hash k' then dictFast W C rec kt vt keyF valF rest (dset acc k' x') else M.throw (.plain .type)) := by
  funext s
  rw [dictFast]
  cases C.isBasic kt && isInstTy kt k <;> cases C.isBasic vt && isInstTy vt x <;> cases valF <;> rfl

/-- The fast path with the right handlers. -/
theorem post_dictFast {n : Nat} {kt vt : Ty} {hk : Handler} {valF : Option Handler} {s0 : LState} (hpk : pick W C kt = .ok hk)
    (hpv : ∀ hv, valF = some hv → pick W C vt = .ok hv) (kvs : List (Val × Val)) :
    ∀ (acc : List (Val × Val)) (s : LState), Ext W C s0 s → Coh W C s → aget s.idx kt = some hk →
    (∀ hv, valF = some hv → aget s.idx vt = some hv) →
    Post (dictFast W C (run W C n) kt vt hk valF kvs acc) s
      (fun res s' => Ext W C s s' ∧ PairsOk W C s0 kt vt kvs acc res) (fun _ s' => Ext W C s s') := by
  induction kvs with
  | nil => intro acc s _ _ _ _; exact ⟨Ext.refl s, [], .nil, rfl, fun _ h => (by cases h)⟩
  | cons p kvs ih =>
    obtain ⟨k, x⟩ := p
    intro acc s he hc hik hiv
    rw [dictFast_cons, post_bind]
    refine (post_part (n := n) he hc hpk hik).mono ?_ (fun _ _ h => h)
    rintro k' s1 ⟨he1, hk'⟩
    rw [post_bind]
    have hval : Post (if (C.isBasic vt && isInstTy vt x) = true then pure x else
        match valF with
        | some h => run W C n h x vt
        | none => M.throw (.plain .name)) s1
        (fun y s' => Ext W C s1 s' ∧ PartLoads W C s0 vt x y) (fun _ s' => Ext W C s1 s') := by
      cases valF with
      | some hv =>
        exact post_part (he.trans he1) (hc.ext he1) (hpv hv rfl) (he1.idx_keep _ _ (hiv hv rfl))
      | none =>
        split
        · rename_i hb; exact ⟨Ext.refl s1, Or.inl ⟨isInstTy_basic hb, rfl⟩⟩
        · exact Ext.refl s1
    refine hval.mono ?_ (fun _ _ h => he1.trans h)
    rintro x' s2 ⟨he2, hx'⟩
    have he12 := he1.trans he2
    split
    · rename_i hh
      refine (ih (dset acc k' x') s2 (he.trans he12) (hc.ext he12) (he12.idx_keep _ _ hik)
        (fun hv h => he12.idx_keep _ _ (hiv hv h))).mono ?_ (fun _ _ h => he12.trans h)
      rintro res s3 ⟨he3, hok⟩
      exact ⟨he12.trans he3, hok.cons hk' hx' hh⟩
    · exact he12

/-- The fast path with an unassigned `value_f` and a value type that is not basic succeeds on the empty dictionary only. -/
theorem post_dictFast_cold {n : Nat} {kt vt : Ty} {hk : Handler} (hb : C.isBasic vt = false) (kvs acc : List (Val × Val))
    (s : LState) : Post (dictFast W C (run W C n) kt vt hk none kvs acc) s (fun res s' => kvs = [] ∧ res = acc ∧ Ext W C s s')
      (fun _ s' => Ext W C s s') := by
  cases kvs with
  | nil => exact ⟨rfl, rfl, Ext.refl s⟩
  | cons p kvs =>
    obtain ⟨k, x⟩ := p
    rw [dictFast_cons]
    simp only [post_bind, hb, Bool.false_and, Bool.false_eq_true, if_false, post_throw]
    split
    · exact Ext.refl s
    · exact (run_ext n hk k kt s).mono (fun _ _ h => h) (fun _ _ h => h)

/-- At some moment of this load, loading `x` into `t` fails. -/
def Fails (W : World) (C : Config) (s : LState) (x : Val) (t : Ty) : Prop :=
  ∃ s1 s2 e, Ext W C s s1 ∧ Raises W C s1 x t e s2

/-- One pair failed, the previous ones did not. -/
def PairsErr (W : World) (C : Config) (s : LState) (kt vt : Ty) (kvs : List (Val × Val)) (e : Exc) : Prop :=
  ∃ pre k x post ps, kvs = pre ++ (k, x) :: post ∧ Zip2 (PairLoads W C s kt vt) pre ps ∧
    ((∃ e', HandlerRaises W C s k kt e' ∧ Fails W C s k kt ∧ e = loadExc k kt (some (.key k)) e') ∨
     (∃ k' e', AcceptsAs W C s k kt k' ∧ HandlerRaises W C s x vt e' ∧ Fails W C s x vt ∧
       e = loadExc x vt (some (.value x)) e') ∨
     (∃ k' x', AcceptsAs W C s k kt k' ∧ AcceptsAs W C s x vt x' ∧ W.hash k' = false ∧ e = .plain .type))

theorem post_loadWith {n : Nat} {t : Ty} {h : Handler} {x : Val} {a : Option Annotation} {s0 s : LState} (he : Ext W C s0 s)
    (hc : Coh W C s) (hp : pick W C t = .ok h) :
    Post (loadWith W C (run W C n) x t a) s (fun y s' => Ext W C s s' ∧ AcceptsAs W C s0 x t y)
      (fun e s' => Ext W C s s' ∧ ∃ e', HandlerRaises W C s0 x t e' ∧ Fails W C s0 x t ∧ e = loadExc x t a e') := by
  have he1 := cacheReg_ext (s := s) hp
  have hr := post_handler (n := n) (x := x) (he.trans he1) (hc.ext he1) hp (cacheReg_idx hc hp)
  unfold Post at hr ⊢
  rw [loadWith_eq hc, hp]
  dsimp only
  cases hq : run W C n h x t (cacheReg W t h s) with
  | div => trivial
  | ok y s' => rw [hq] at hr; exact ⟨he1.trans hr.1, hr.2⟩
  | err e s' =>
    rw [hq] at hr
    refine ⟨he1.trans hr.1, e, hr.2, ⟨s, s', loadExc x t none e, he, ⟨n, ?_⟩⟩, rfl⟩
    rw [load_eq hc, hp]; simp [hq]

theorem post_dictSlow {n : Nat} {kt vt : Ty} {hk hv : Handler} {s0 : LState} (hpk : pick W C kt = .ok hk)
    (hpv : pick W C vt = .ok hv) (kvs : List (Val × Val)) :
    ∀ (acc : List (Val × Val)) (s : LState), Ext W C s0 s → Coh W C s →
    Post (dictSlow W C (run W C n) kt vt kvs acc) s (fun res _ => PairsOk W C s0 kt vt kvs acc res)
      (fun e _ => PairsErr W C s0 kt vt kvs e) := by
  induction kvs with
  | nil => intro acc s _ _; exact ⟨[], .nil, rfl, fun _ h => (by cases h)⟩
  | cons p kvs ih =>
    obtain ⟨k, x⟩ := p
    intro acc s he hc
    unfold dictSlow
    rw [post_bind]
    refine (post_loadWith (n := n) he hc hpk).mono ?_ ?_
    · rintro k' s1 ⟨he1, hk'⟩
      rw [post_bind]
      refine (post_loadWith (n := n) (he.trans he1) (hc.ext he1) hpv).mono ?_ ?_
      · rintro x' s2 ⟨he2, hx'⟩
        have he12 := he1.trans he2
        split
        · rename_i hh
          refine (ih (dset acc k' x') s2 (he.trans he12) (hc.ext he12)).mono ?_ ?_
          · intro res s3 hok; exact hok.cons (Or.inr hk') (Or.inr hx') hh
          · rintro e _ ⟨pre, k1, x1, post, ps, rfl, hz, hcase⟩
            exact ⟨(k, x) :: pre, k1, x1, post, (k', x') :: ps, rfl, .cons ⟨Or.inr hk', Or.inr hx'⟩ hz, hcase⟩
        · rename_i hh
          exact ⟨[], k, x, kvs, [], rfl, .nil, Or.inr (Or.inr ⟨k', x', hk', hx', by simpa using hh, rfl⟩)⟩
      · rintro e s2 ⟨_, e', h1, h2, rfl⟩
        exact ⟨[], k, x, kvs, [], rfl, .nil, Or.inr (Or.inl ⟨k', e', hk', h1, h2, rfl⟩)⟩
    · rintro e s1 ⟨_, e', h1, h2, rfl⟩
      exact ⟨[], k, x, kvs, [], rfl, .nil, Or.inl ⟨e', h1, h2, rfl⟩⟩

/-- The handlers used by the fast path. -/
theorem dictValueHandler_eq {s : LState} (hc : Coh W C s) (v : Val) (t vt : Ty) (kf : Handler) :
    dictValueHandler W C v t vt kf s = match pick W C vt with
      | .error c => .err (lookupExc (mkExc .tlValue (.noHandlerIn vt t) v vt) c) s
      | .ok hv => .ok (if (aget s.idx vt).isSome then (kf, some hv) else (hv, none)) (cacheIdx vt hv s) := by
  unfold dictValueHandler
  rw [M.bind_apply, M.get_apply]
  dsimp only
  cases hi : aget s.idx vt with
  | some h =>
    rw [hc.idx vt h hi]
    simp [cacheIdx, hi]
  | none =>
    dsimp only
    rw [M.bind_apply, resolve_eq hc]
    cases hp : pick W C vt with
    | error c => rfl
    | ok hv => rfl

theorem items_dictequivalence (v : Val) (kvs : List (Val × Val)) : items (dictequivalence C v) = some kvs ↔ DictData C v kvs := by
  unfold DictData
  cases v with
  | ns fs =>
    simp only [dictequivalence]
    cases hq : C.dictequivalence with
    | true => simp [items, eq_comm]
    | false => simp [items]
  | _ => simp [dictequivalence, items]

/-- Outcome of the handler of a dictionary type. -/
theorem post_dictload {n : Nat} {v : Val} {kt vt : Ty} {s : LState} (hc : Coh W C s) :
    Post (dictload W C (run W C n) v (.dict kt vt)) s
      (fun r _ => ((aget s.idx vt).isSome = true ∨ DictSafe C kt vt ∧ C.Usual W kt ∧ C.Usual W vt) →
        ∃ kvs res, DictData C v kvs ∧ r = .dict res ∧ PairsOk W C s kt vt kvs [] res)
      (fun e _ => (∃ c u, (u = kt ∨ u = vt) ∧ pick W C u = .error c ∧
          e = lookupExc (mkExc .tlValue (.noHandlerIn u (.dict kt vt)) v u) c) ∨
        ((∀ kvs, ¬ DictData C v kvs) ∧ e.cls = .tlAttr) ∨
        (∃ kvs e', DictData C v kvs ∧ PairsErr W C s kt vt kvs e' ∧
          ((e'.cls.isAttr = true ∧ e.cls = .tlAttr) ∨ (e'.cls.isAttr = false ∧ e = e')))) := by
  unfold dictload
  dsimp only
  rw [post_bind]
  unfold Post
  rw [resolve_eq hc]
  cases hpk : pick W C kt with
  | error c => exact Or.inl ⟨c, kt, Or.inl rfl, hpk, rfl⟩
  | ok hk =>
    dsimp only
    have he := cacheIdx_ext (s := s) hpk
    have hc1 := hc.ext he
    rw [M.bind_apply, dictValueHandler_eq hc1]
    cases hpv : pick W C vt with
    | error c => exact Or.inl ⟨c, vt, Or.inr rfl, hpv, rfl⟩
    | ok hv =>
      dsimp only
      have he2 := cacheIdx_ext (s := cacheIdx kt hk s) hpv
      have he12 := he.trans he2
      have hc2 := hc1.ext he2
      have hik : aget (cacheIdx vt hv (cacheIdx kt hk s)).idx kt = some hk := he2.idx_keep _ _ (cacheIdx_idx hc hpk)
      have hiv : aget (cacheIdx vt hv (cacheIdx kt hk s)).idx vt = some hv := cacheIdx_idx hc1 hpv
      generalize hs2 : cacheIdx vt hv (cacheIdx kt hk s) = s2 at *
      generalize hfs : (if (aget (cacheIdx kt hk s).idx vt).isSome = true then (hk, some hv) else (hv, none)) = fs
      change Post _ s2 _ _
      rw [post_rescue]
      cases hit : items (dictequivalence C v) with
      | none =>
        dsimp only
        rw [post_throw, post_rescue, post_throw]
        have : ∀ kvs, ¬ DictData C v kvs := fun kvs h => by
          rw [← items_dictequivalence (C := C)] at h; rw [h] at hit; cases hit
        exact Or.inr (Or.inl ⟨this, rfl⟩)
      | some kvs =>
        dsimp only
        have hdata := (items_dictequivalence (C := C) v kvs).1 hit
        have slow : ∀ s3, Ext W C s2 s3 → Post ((fun (_ : Exc) => M.rescue
            (do let r ← dictSlow W C (run W C n) kt vt kvs []; pure (Val.dict r))
            (fun e => if e.cls.isAttr then M.throw (mkExc .tlAttr .wrapped (dictequivalence C v) (.dict kt vt)) else M.throw e))
              (Exc.plain .name)) s3
            (fun r _ => ((aget s.idx vt).isSome = true ∨ DictSafe C kt vt ∧ C.Usual W kt ∧ C.Usual W vt) →
              ∃ kvs res, DictData C v kvs ∧ r = Val.dict res ∧ PairsOk W C s kt vt kvs [] res)
            (fun e _ => (∃ c u, (u = kt ∨ u = vt) ∧ pick W C u = .error c ∧
                e = lookupExc (mkExc .tlValue (.noHandlerIn u (.dict kt vt)) v u) c) ∨
              ((∀ kvs, ¬ DictData C v kvs) ∧ e.cls = .tlAttr) ∨
              (∃ kvs e', DictData C v kvs ∧ PairsErr W C s kt vt kvs e' ∧
                ((e'.cls.isAttr = true ∧ e.cls = .tlAttr) ∨ (e'.cls.isAttr = false ∧ e = e')))) := by
          intro s3 he3
          dsimp only
          rw [post_rescue, post_bind]
          refine (post_dictSlow (n := n) (s0 := s) hpk hpv kvs [] s3 (he12.trans he3) (hc2.ext he3)).mono ?_ ?_
          · intro res _ h _; exact ⟨kvs, res, hdata, rfl, h⟩
          · intro e s4 h
            split
            · rename_i ha; exact Or.inr (Or.inr ⟨kvs, e, hdata, h, Or.inl ⟨ha, rfl⟩⟩)
            · rename_i ha; exact Or.inr (Or.inr ⟨kvs, e, hdata, h, Or.inr ⟨by simpa using ha, rfl⟩⟩)
        rw [post_bind]
        cases hw : (aget (cacheIdx kt hk s).idx vt).isSome with
        | true =>
          rw [hw] at hfs; simp only [if_true] at hfs; subst hfs
          refine (post_dictFast (n := n) (s0 := s) (valF := some hv) hpk (fun _ h => by cases h; exact hpv) kvs [] s2 he12 hc2 hik
            (fun _ h => by cases h; exact hiv)).mono ?_ ?_
          · rintro res _ ⟨_, h⟩ _; exact ⟨kvs, res, hdata, rfl, h⟩
          · intro e s3 h3; exact slow s3 h3
        | false =>
          rw [hw] at hfs; simp only [Bool.false_eq_true, if_false] at hfs; subst hfs
          by_cases hsafe : (aget s.idx vt).isSome = true ∨ DictSafe C kt vt ∧ C.Usual W kt ∧ C.Usual W vt
          · have hw0 : aget s.idx vt = none := by
              cases h0 : aget s.idx vt with
              | none => rfl
              | some h => rw [he.idx_keep _ _ h0] at hw; cases hw
            rcases hsafe with hsafe | ⟨hb | heq | ⟨hb1, hb2, hn1, hn2⟩, hu1, hu2⟩
            · rw [hw0] at hsafe; cases hsafe
            · refine (post_dictFast_cold (n := n) hb kvs [] s2).mono ?_ (fun _ s3 h3 => slow s3 h3)
              rintro res _ ⟨rfl, rfl, _⟩ _
              exact ⟨[], [], hdata, rfl, [], .nil, rfl, fun _ h => (by cases h)⟩
            · subst heq
              rw [hpk] at hpv; cases hpv
              refine (post_dictFast (n := n) (s0 := s) (valF := none) hpk (fun _ h => by cases h) kvs [] s2 he12 hc2 hik
                (fun _ h => by cases h)).mono ?_ (fun _ s3 h3 => slow s3 h3)
              rintro res _ ⟨_, h⟩ _; exact ⟨kvs, res, hdata, rfl, h⟩
            · have hkv : hk = hv := by
                cases kt <;> simp [Config.isBasic] at hb1
                cases vt <;> simp [Config.isBasic] at hb2
                rw [hu1.basic hb1 (by intro h; exact hn1 (by rw [h]))] at hpk
                rw [hu2.basic hb2 (by intro h; exact hn2 (by rw [h]))] at hpv
                rw [← Except.ok.inj hpk, ← Except.ok.inj hpv]
              subst hkv
              refine (post_dictFast (n := n) (s0 := s) (valF := none) hpk (fun _ h => by cases h) kvs [] s2 he12 hc2 hik
                (fun _ h => by cases h)).mono ?_ (fun _ s3 h3 => slow s3 h3)
              rintro res _ ⟨_, h⟩ _; exact ⟨kvs, res, hdata, rfl, h⟩
          · refine Post.mono (Q := fun _ s3 => Ext W C s2 s3) (E := fun _ s3 => Ext W C s2 s3) ?_
              (fun _ _ _ h => absurd h hsafe) (fun _ s3 h3 => slow s3 h3)
            exact PresE.dictFast (run_ext n) kt vt hv none kvs [] s2

theorem PartLoads.back {s s1 : LState} {t : Ty} {x y : Val} (he : Ext W C s s1) (h : PartLoads W C s1 t x y) :
    PartLoads W C s t x y := by
  rcases h with h | ⟨s2, s3, a, b⟩
  · exact Or.inl h
  · exact Or.inr ⟨s2, s3, he.trans a, b⟩

theorem PairLoads.back {s s1 : LState} {kt vt : Ty} {p q : Val × Val} (he : Ext W C s s1) (h : PairLoads W C s1 kt vt p q) :
    PairLoads W C s kt vt p q := ⟨h.1.back he, h.2.back he⟩

theorem AcceptsAs.back {s s1 : LState} {t : Ty} {x y : Val} (he : Ext W C s s1) (h : AcceptsAs W C s1 x t y) :
    AcceptsAs W C s x t y := by
  obtain ⟨s2, s3, a, b⟩ := h; exact ⟨s2, s3, he.trans a, b⟩

/-! ## C17 -/

theorem dict_loads {s s' : LState} {kt vt : Ty} (hd : C.Usual W (.dict kt vt)) (hc : Coh W C s) {v r : Val}
    (hsafe : (aget s.idx vt).isSome = true ∨ DictSafe C kt vt ∧ C.Usual W kt ∧ C.Usual W vt) (h : Loads W C s v (.dict kt vt) r s') :
    ∃ kvs ps, DictData C v kvs ∧ Zip2 (PairLoads W C s kt vt) kvs ps ∧ (∀ p ∈ ps, W.hash p.1 = true) ∧ r = dictOf ps := by
  obtain ⟨n, hh, hp, hr⟩ := (loads_iff hc).1 h
  rw [hd.dict] at hp; cases hp
  have he : Ext W C s (cacheReg W (.dict kt vt) .dictload s) := cacheReg_ext (hd.dict)
  cases n with
  | zero => cases hr
  | succ n =>
    have hs' : (aget (cacheReg W (.dict kt vt) .dictload s).idx vt).isSome = true ∨ DictSafe C kt vt ∧ C.Usual W kt ∧ C.Usual W vt := by
      rcases hsafe with hi | hs
      · left
        cases hi' : aget s.idx vt with
        | none => rw [hi'] at hi; cases hi
        | some h => rw [he.idx_keep _ _ hi']; rfl
      · exact Or.inr hs
    obtain ⟨kvs, res, h1, rfl, ps, h2, rfl, h3⟩ := (post_dictload (hc.ext he)).ok hr hs'
    exact ⟨kvs, ps, h1, h2.mono (fun _ _ h => h.back he), h3, rfl⟩

/-- **C17** (partial: only for value and key types that `DictSafe` describes; the counterexamples below show the property to be
false otherwise).  A successful load into `Dict[K, V]` comes from a dictionary (or Namespace); each key was accepted by `K` and
each value by `V` (instances of basic types are kept as they are), and the result is the dictionary of the loaded pairs, in order,
later pairs overriding earlier ones with equal keys. -/
theorem C17_pairs_partial {s s' : LState} {kt vt : Ty} (hd : C.Usual W (.dict kt vt)) (hs : Reachable W C s) {v r : Val}
    (hsafe : DictSafe C kt vt) (huk : C.Usual W kt) (huv : C.Usual W vt) (h : Loads W C s v (.dict kt vt) r s') :
    ∃ kvs ps, DictData C v kvs ∧ Zip2 (PairLoads W C s kt vt) kvs ps ∧ (∀ p ∈ ps, W.hash p.1 = true) ∧ r = dictOf ps :=
  dict_loads hd hs.coh (Or.inr ⟨hsafe, huk, huv⟩) h

/-- **C17** For all types, provided that the loader has loaded into `V` before. -/
theorem C17_pairs_warm_partial {s0 s1 s s' : LState} {kt vt : Ty} (hd : C.Usual W (.dict kt vt)) (hs : Reachable W C s0) {v0 r0 v r : Val}
    (hwarm : Loads W C s0 v0 vt r0 s1) (hafter : AfterLoads W C s1 s) (h : Loads W C s v (.dict kt vt) r s') :
    ∃ kvs ps, DictData C v kvs ∧ Zip2 (PairLoads W C s kt vt) kvs ps ∧ (∀ p ∈ ps, W.hash p.1 = true) ∧ r = dictOf ps := by
  refine dict_loads hd (hafter.reachable (hs.ok hwarm)).coh (Or.inl ?_) h
  obtain ⟨n, hh, hp, hr⟩ := (loads_iff hs.coh).1 hwarm
  have h1 := cacheReg_idx hs.coh hp
  have h2 := (run_ext (W := W) (C := C) n hh v0 vt _).ok hr
  rw [hafter.ext.idx_keep _ _ (h2.idx_keep _ _ h1)]; rfl

/-- **C17** (completeness, all types, cold or warm).  If the data is a dictionary, and each key is accepted by `K` and each value
by `V` whatever the caches hold, with hashable outcomes for the keys, then the load does not fail. -/
theorem C17_complete {s : LState} {kt vt : Ty} (hd : C.Usual W (.dict kt vt)) (hs : Reachable W C s) {v : Val} {kvs : List (Val × Val)}
    {hk hv : Handler} (hpk : pick W C kt = .ok hk) (hpv : pick W C vt = .ok hv) (hdata : DictData C v kvs)
    (hall : ∀ p ∈ kvs, ∀ s1, Ext W C s s1 → (∃ k' s2, Loads W C s1 p.1 kt k' s2 ∧ W.hash k' = true) ∧
      (∃ x' s2, Loads W C s1 p.2 vt x' s2)) :
    ∀ e s', ¬ Raises W C s v (.dict kt vt) e s' := by
  intro e s' h
  rcases (raises_iff hs.coh).1 h with ⟨n, hh, e', hp, hr, rfl⟩ | ⟨c, hp, _⟩
  · rw [hd.dict] at hp; cases hp
    have he : Ext W C s (cacheReg W (.dict kt vt) .dictload s) := cacheReg_ext (hd.dict)
    cases n with
    | zero => cases hr
    | succ n =>
      rcases (post_dictload (hs.coh.ext he)).err hr with ⟨c, u, hu, hp, _⟩ | ⟨hno, _⟩ | ⟨kvs', e1, hd', ⟨pre, k, x, post, ps, hkvs, _, hbad⟩, _⟩
      · rcases hu with rfl | rfl
        · rw [hpk] at hp; cases hp
        · rw [hpv] at hp; cases hp
      · exact hno _ hdata
      · have : kvs' = kvs := by
          have h1 := (items_dictequivalence (C := C) v kvs').2 hd'
          have h2 := (items_dictequivalence (C := C) v kvs).2 hdata
          rw [h1] at h2; cases h2; rfl
        subst this
        have hmem : (k, x) ∈ kvs' := by rw [hkvs]; simp
        rcases hbad with ⟨e2, _, ⟨s1, s2, e3, he1, hr2⟩, _⟩ | ⟨_, e2, _, _, ⟨s1, s2, e3, he1, hr2⟩, _⟩ | ⟨k', x', ⟨s1, s2, he1, hl⟩, _, hh, _⟩
        · obtain ⟨⟨k2, s3, hl, _⟩, _⟩ := hall _ hmem s1 (he.trans he1)
          exact hl.not_raises hr2
        · obtain ⟨_, x2, s3, hl⟩ := hall _ hmem s1 (he.trans he1)
          exact hl.not_raises hr2
        · obtain ⟨⟨k2, s3, hl2, hh2⟩, _⟩ := hall _ hmem s1 (he.trans he1)
          rw [(hl.unique hl2).1, hh2] at hh; cases hh
  · rw [hd.dict] at hp; cases hp

/-- **C17** What a failure means: a key or value type without handler; a value that is no dictionary
(TypedloadAttributeError); or a pair at some position, all pairs before it being fine, whose key or value is refused — the trace then
names the key or value, unless the failure is an AttributeError, which is replaced by a new TypedloadAttributeError — or whose
loaded key is unhashable (AssertionError). -/
theorem C17_error {s s' : LState} {kt vt : Ty} (hd : C.Usual W (.dict kt vt)) (hcc : CalmConditions W C) (hs : Reachable W C s) {v : Val} {e : Exc}
    (h : Raises W C s v (.dict kt vt) e s') :
    ((∃ u c, (u = kt ∨ u = vt) ∧ pick W C u = .error c) ∧ e.cls = .tlValue) ∨
    ((∀ kvs, ¬ DictData C v kvs) ∧ e.cls = .tlAttr) ∨
    (∃ kvs pre k x post ps, DictData C v kvs ∧ kvs = pre ++ (k, x) :: post ∧ Zip2 (PairLoads W C s kt vt) pre ps ∧
      ((∃ e', HandlerRaises W C s k kt e' ∧ Fails W C s k kt ∧
          (e'.isTL = true → e'.cls ≠ .tlAttr → e.trace = ⟨v, .dict kt vt, none⟩ :: ⟨k, kt, some (.key k)⟩ :: e'.trace)) ∨
       (∃ k' e', AcceptsAs W C s k kt k' ∧ HandlerRaises W C s x vt e' ∧ Fails W C s x vt ∧
          (e'.isTL = true → e'.cls ≠ .tlAttr → e.trace = ⟨v, .dict kt vt, none⟩ :: ⟨x, vt, some (.value x)⟩ :: e'.trace)) ∨
       (∃ k', AcceptsAs W C s k kt k' ∧ W.hash k' = false ∧ e.cls = .assertion))) := by
  rcases (raises_iff hs.coh).1 h with ⟨n, hh, e', hp, hr, rfl⟩ | ⟨c, hp, _⟩
  · rw [hd.dict] at hp; cases hp
    have he : Ext W C s (cacheReg W (.dict kt vt) .dictload s) := cacheReg_ext (hd.dict)
    cases n with
    | zero => cases hr
    | succ n =>
      rcases (post_dictload (hs.coh.ext he)).err hr with ⟨c, u, hu, hp, rfl⟩ | ⟨hno, h1⟩ |
          ⟨kvs, e1, hdata, ⟨pre, k, x, post, ps, hkvs, hz, hbad⟩, hcls⟩
      · left
        refine ⟨⟨u, c, hu, hp⟩, ?_⟩
        have := pick_error_value hcc hp; subst this
        rfl
      · right; left
        refine ⟨hno, ?_⟩
        have htl : e'.isTL = true := by unfold Exc.isTL; rw [h1]; rfl
        rw [(loadExc_tl htl).1, h1]
      · right; right
        refine ⟨kvs, pre, k, x, post, ps, hdata, hkvs, hz.mono (fun _ _ h => h.back he), ?_⟩
        have tr : ∀ (y : Val) (u : Ty) (a : Annotation) (e2 : Exc), e1 = loadExc y u (some a) e2 → e2.isTL = true → e2.cls ≠ .tlAttr →
            (loadExc v (.dict kt vt) none e').trace = ⟨v, .dict kt vt, none⟩ :: ⟨y, u, some a⟩ :: e2.trace := by
          intro y u a e2 h1 h2 h3
          have h4 : e1 = e2.push ⟨y, u, some a⟩ := by rw [h1, loadExc, if_pos h2]
          have h5 : e1.cls.isAttr = false := by
            rw [h4, Exc.cls_push]
            unfold Exc.isTL at h2
            cases hc : e2.cls <;> simp_all [ExcClass.isAttr, ExcClass.isTL]
          rcases hcls with ⟨h6, _⟩ | ⟨_, rfl⟩
          · rw [h5] at h6; cases h6
          · have htl : e'.isTL = true := by rw [h4]; simpa using h2
            rw [(loadExc_tl htl).2.2.2.2.2, h4]; simp
        rcases hbad with ⟨e2, a, ⟨s1, s2, e3, he1, hr2⟩, b⟩ | ⟨k', e2, a, b, ⟨s1, s2, e3, he1, hr2⟩, c⟩ | ⟨k', x', a, b, c, d⟩
        · exact Or.inl ⟨e2, a.back he, ⟨s1, s2, e3, he.trans he1, hr2⟩, tr _ _ _ _ b⟩
        · exact Or.inr (Or.inl ⟨k', e2, a.back he, b.back he, ⟨s1, s2, e3, he.trans he1, hr2⟩, tr _ _ _ _ c⟩)
        · refine Or.inr (Or.inr ⟨k', a.back he, c, ?_⟩)
          subst d
          rcases hcls with ⟨h6, _⟩ | ⟨_, rfl⟩
          · cases h6
          · rfl
  · rw [hd.dict] at hp; cases hp

/-! ## The mix-up is observable -/

/-- `NewType('U', int)` -/
def Sample.U : Ty := .newtype "U" (.prim .int)

/-- `Dict[U, int]` with a key that is no int: accepted by a fresh loader, although the key type refuses it; a loader that has already
loaded an int refuses the same dictionary. -/
theorem C17_mixup_counterexample :
    (∃ s', Loads Sample.W Sample.C (fresh []) (.dict [(.str "x", .int 1)]) (.dict Sample.U (.prim .int)) (.dict [(.str "x", .int 1)]) s') ∧
    (∃ e s', Raises Sample.W Sample.C (fresh []) (.str "x") Sample.U e s') ∧
    (∃ r s1 e s', Loads Sample.W Sample.C (fresh []) (.int 1) (.prim .int) r s1 ∧
      Raises Sample.W Sample.C s1 (.dict [(.str "x", .int 1)]) (.dict Sample.U (.prim .int)) e s') :=
  ⟨⟨_, 5, rfl⟩, ⟨_, _, 5, rfl⟩, ⟨_, _, _, _, ⟨5, rfl⟩, ⟨5, rfl⟩⟩⟩

/-- `Dict[timedelta, int]`: the key 5 is five days in a fresh loader and five seconds in a used one. -/
theorem C17_units_counterexample :
    (∃ s', Loads Sample.W Sample.C (fresh []) (.dict [(.int 5, .int 1)]) (.dict .timedelta (.prim .int))
      (.dict [(.timedelta 432000000000, .int 1)]) s') ∧
    (∃ r s1 s', Loads Sample.W Sample.C (fresh []) (.int 1) (.prim .int) r s1 ∧
      Loads Sample.W Sample.C s1 (.dict [(.int 5, .int 1)]) (.dict .timedelta (.prim .int))
        (.dict [(.timedelta 5000000, .int 1)]) s') :=
  ⟨⟨_, 5, rfl⟩, ⟨_, _, _, ⟨5, rfl⟩, ⟨5, rfl⟩⟩⟩

/-- A loaded key that is unhashable makes the load raise AssertionError. -/
theorem C17_unhashable_counterexample : ∃ e s', Raises Sample.W Sample.C (fresh []) (.dict [(.tuple [.int 1], .int 1)])
    (.dict (.coll .list (.prim .int)) (.prim .int)) e s' ∧ e.cls = .assertion := ⟨_, _, ⟨5, rfl⟩, rfl⟩

/-- Safe types, and a dictionary with a converted key, a converted value and a repeated key. -/
example : DictSafe Sample.C (.prim .str) (.prim .int) := Or.inr (Or.inr ⟨by decide, by decide, by decide, by decide⟩)
example : (load Sample.W Sample.C 5 (.dict [(.str "5", .str "5"), (.int 5, .bool true)]) (.dict (.prim .str) (.prim .int))
    (fresh [])).val? = some (.dict [(.str "5", .int 1)]) := by decide
/-- Hypotheses of C17_complete. -/
example : ∀ e s', ¬ Raises Sample.W Sample.C (fresh []) (.dict [(.int 1, .str "a"), (.int 2, .str "b")])
    (.dict .any (.lit [.str "a", .str "b"])) e s' := by
  refine C17_complete (C := Sample.C) rfl (.new _ _) (pick_any (show Sample.C.Default from rfl))
    (pick_lit (show Sample.C.Default from rfl) _) (Or.inl rfl) ?_
  intro p hp s1 he
  have hc : Coh Sample.W Sample.C s1 := (Reachable.new (W := Sample.W) (C := Sample.C) (some []) []).coh.ext he
  refine ⟨⟨p.1, _, (loads_iff hc).2 ⟨1, .anyload, pick_any (show Sample.C.Default from rfl), rfl⟩, ?_⟩,
    ⟨p.2, cacheReg Sample.W (.lit [.str "a", .str "b"]) .literalload s1,
      (loads_iff hc).2 ⟨1, .literalload, pick_lit (show Sample.C.Default from rfl) _, ?_⟩⟩⟩
  · simp at hp; rcases hp with rfl | rfl <;> rfl
  · simp at hp; rcases hp with rfl | rfl <;> rfl
/-- The trace of a bad value. -/
example : ((load Sample.W Sample.C 5 (.dict [(.str "a", .int 1), (.str "b", .str "x")]) (.dict (.prim .str) (.prim .int))
    (fresh [])).err?.map (fun e => e.trace.map (·.ann))) = some [none, some (.value (.str "x"))] := by decide

end TL
