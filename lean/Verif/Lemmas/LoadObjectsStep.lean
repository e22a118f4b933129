import Verif.Lemmas.LoadObjectsRun
/-!
# The loader with object identity: dictionaries, objects, unions; the whole loader
-/

namespace TL

set_option linter.unusedSectionVars false

/-- Outcomes of helpers that return their exception. -/
def ExcRel {α β : Type} (R : α → β → Prop) : Except ExcClass α → Except ExcClass β → Prop
  | .ok a, .ok b => R a b
  | .error e, .error e' => e = e'
  | _, _ => False

/-- What the handlers of classes and dictionaries use of the data. -/
def ItemsFine (F : Prop) (S : Nat → Prop) : AVal → Prop
  | .dict _ kvs => FinePartsKV F S kvs
  | .ns _ fs => FinePartsKV F S (fs.map (fun p => (.str p.1, p.2)))
  | _ => True

theorem FineParts.items {F : Prop} {S : Nat → Prop} {x : AVal} (h : FineParts F S x) : ItemsFine F S x := by
  cases x with
  | dict => exact h.dict
  | ns => exact h.ns
  | _ => trivial

section handlers
variable {W : World} {C : Config} {G : Ty → Prop} {Bd : String → Ty → Prop} {O : LObjects W} {F : Prop} {S : Nat → Prop} {b : Nat}
variable (hsc : Scene W C G Bd O F S) {rec : ARec} {rec' : Rec}
  (hrec : ∀ h x t σ, G t → Installed C h → Good W C Bd σ.ls → b ≤ σ.next → FineParts F S x → (F → x.addrs = [] ∨ pick W C t = .ok h) →
    ASim W C Bd b (ValOwn F S σ.next) (rec h x t) (rec' h x.erase t) σ)
include hsc hrec

/-! ### Dictionaries -/

omit hsc hrec in
theorem aitems_erase (x : AVal) : items x.erase = (aitems x).map AVal.eraseKV := by
  cases x with
  | atom v h => cases v <;> first | rfl | cases h
  | _ => rfl

omit hsc hrec in
theorem ASim.dictequivalence (x : AVal) (σ : AMem) (hs : Good W C Bd σ.ls) (hb : b ≤ σ.next) (hx : FineParts F S x) :
    ASim W C Bd b (fun _ y v => y.erase = v ∧ ItemsFine F S y) (adictequivalence C x) (Pure.pure (dictequivalence C x.erase)) σ := by
  cases x with
  | atom v h =>
    have : TL.dictequivalence C v = v := by cases v <;> first | rfl | cases h
    show ASim _ _ _ _ _ (Pure.pure _) (Pure.pure (TL.dictequivalence C v)) _
    rw [this]
    exact ASim.pure hs ⟨rfl, trivial⟩
  | ns a fs =>
    unfold adictequivalence TL.dictequivalence
    simp only [AVal.erase]
    by_cases h : C.dictequivalence = true
    · rw [if_pos h, if_pos h]
      refine ASim.bindPure (ASim.new hs) (fun σ1 a' hk _ hn => ?_)
      obtain ⟨rfl, hn⟩ := hn
      refine ASim.bindPure (ASim.write hk.good hb) (fun σ2 _ hk2 _ _ => ?_)
      exact ASim.pure hk2.good ⟨by simp only [AVal.erase, AVal.eraseKV_strs], hx.ns⟩
    · rw [if_neg h, if_neg h]
      exact ASim.pure hs ⟨rfl, hx.ns⟩
  | dict a kvs => exact ASim.pure hs ⟨rfl, hx.dict⟩
  | seq => exact ASim.pure hs ⟨rfl, trivial⟩
  | nt => exact ASim.pure hs ⟨rfl, trivial⟩
  | inst => exact ASim.pure hs ⟨rfl, trivial⟩

omit hsc hrec in
theorem addrs_isInstTy {t : Ty} {x : AVal} (h : isInstTy t x.erase = true) : x.addrs = [] := by
  cases t with
  | prim p => exact addrs_isInst h
  | _ => cases h

omit hsc hrec in
theorem adictFast_cons (rec : ARec) (kt vt : Ty) (keyF : Handler) (valF : Option Handler) (a : Nat) (k x : AVal) (rest acc : List (AVal × AVal)) :
    adictFast W C rec kt vt keyF valF a ((k, x) :: rest) acc =
      ((if (C.isBasic kt && isInstTy kt k.erase) = true then Pure.pure k else rec keyF k kt : AL AVal) >>= fun k' =>
        (if (C.isBasic vt && isInstTy vt x.erase) = true then Pure.pure x else
          match valF with
          | some h => rec h x vt
          | none => M.throw (.plain .name) : AL AVal) >>= fun x' =>
        if W.hash k'.erase then (do awrite a; adictFast W C rec kt vt keyF valF a rest (adset acc k' x')) else M.throw (.plain .type)) := by
  funext s
  rw [adictFast]
  cases C.isBasic kt && isInstTy kt k.erase <;> cases C.isBasic vt && isInstTy vt x.erase <;> cases valF <;> rfl

theorem ASim.dictFast {kt vt : Ty} (hgk : G kt) (hgv : G vt) {keyF : Handler} {valF : Option Handler} (hki : Installed C keyF)
    (hvi : ∀ h, valF = some h → pick W C vt = .ok h) {a : Nat} (ha : b ≤ a) (kvs : List (AVal × AVal)) :
    ∀ (acc : List (AVal × AVal)) (σ : AMem) (k0 : Nat), Good W C Bd σ.ls → b ≤ σ.next → k0 ≤ σ.next → FinePartsKV F S kvs → Own F S k0 σ.next (AVal.addrsKV acc) →
    ASim W C Bd b (fun k' ys vs => AVal.eraseKV ys = vs ∧ Own F S k0 k' (AVal.addrsKV ys)) (adictFast W C rec kt vt keyF valF a kvs acc)
      (dictFast W C rec' kt vt keyF valF (AVal.eraseKV kvs) (AVal.eraseKV acc)) σ := by
  induction kvs with
  | nil => intro acc σ k0 hs _ _ _ hacc; exact ASim.pure hs ⟨rfl, hacc⟩
  | cons p kvs ih =>
    obtain ⟨k, x⟩ := p
    intro acc σ k0 hs hb hk0 hfine hacc
    obtain ⟨hfk, hfk', hfx⟩ := hfine (k, x) (by simp)
    simp only [AVal.eraseKV]
    rw [adictFast_cons, TL.dictFast_cons]
    refine ASim.bind (Q := ValOwn F S σ.next) ?_ (fun σ1 y r hk1 hy => ?_)
    · by_cases h : (C.isBasic kt && isInstTy kt k.erase) = true
      · rw [if_pos h, if_pos h]; exact ASim.pure hs (ValOwn.pass hfk hfk')
      · rw [if_neg h, if_neg h]; exact hrec keyF k kt σ hgk hki hs hb hfk (fun hF => .inl (hfk' hF))
    · obtain ⟨rfl, hoy⟩ := hy
      refine ASim.bind (Q := ValOwn F S σ1.next) ?_ (fun σ2 z r hk2 hz => ?_)
      · by_cases h : (C.isBasic vt && isInstTy vt x.erase) = true
        · rw [if_pos h, if_pos h]
          exact ASim.pure hk1.good (ValOwn.pass hfx (fun _ => addrs_isInstTy (t := vt) (by simp only [Bool.and_eq_true] at h; exact h.2)))
        · rw [if_neg h, if_neg h]
          cases hv : valF with
          | none => exact ASim.throw hk1.good _
          | some hh =>
            exact hrec hh x vt σ1 hgv (pick_installed (hvi hh hv)) hk1.good (Nat.le_trans hb hk1.next) hfx (fun _ => .inr (hvi hh hv))
      · obtain ⟨rfl, hoz⟩ := hz
        by_cases hh : W.hash y.erase = true
        · rw [if_pos hh, if_pos hh]
          refine ASim.bindPure (ASim.write hk2.good ha) (fun σ3 _ hk3 _ hn => ?_)
          have := hk1.next; have := hk2.next; have := hk3.next
          rw [← AVal.eraseKV_adset]
          refine ih _ σ3 k0 hk3.good (by omega) (by omega) (fun q hq => hfine q (by simp [hq])) ?_
          rw [hn]
          exact (hacc.append (hoy.append hoz hk1.next hk2.next) hk0 (by omega)).perm (AVal.addrs_adset _ _ _)
        · rw [if_neg hh, if_neg hh]; exact ASim.throw hk2.good _

theorem ASim.dictSlow {kt vt : Ty} (hgk : G kt) (hgv : G vt) {a : Nat} (ha : b ≤ a) (kvs : List (AVal × AVal)) :
    ∀ (acc : List (AVal × AVal)) (σ : AMem) (k0 : Nat), Good W C Bd σ.ls → b ≤ σ.next → k0 ≤ σ.next → FinePartsKV F S kvs → Own F S k0 σ.next (AVal.addrsKV acc) →
    ASim W C Bd b (fun k' ys vs => AVal.eraseKV ys = vs ∧ Own F S k0 k' (AVal.addrsKV ys)) (adictSlow W C rec kt vt a kvs acc)
      (dictSlow W C rec' kt vt (AVal.eraseKV kvs) (AVal.eraseKV acc)) σ := by
  induction kvs with
  | nil => intro acc σ k0 hs _ _ _ hacc; exact ASim.pure hs ⟨rfl, hacc⟩
  | cons p kvs ih =>
    obtain ⟨k, x⟩ := p
    intro acc σ k0 hs hb hk0 hfine hacc
    obtain ⟨hfk, hfk', hfx⟩ := hfine (k, x) (by simp)
    simp only [adictSlow, AVal.eraseKV, TL.dictSlow]
    refine ASim.bind (ASim.loadWith hsc hrec k hgk _ σ hs hb hfk) (fun σ1 y r hk1 hy => ?_)
    obtain ⟨rfl, hoy⟩ := hy
    refine ASim.bind (ASim.loadWith hsc hrec x hgv _ σ1 hk1.good (Nat.le_trans hb hk1.next) hfx) (fun σ2 z r hk2 hz => ?_)
    obtain ⟨rfl, hoz⟩ := hz
    by_cases hh : W.hash y.erase = true
    · rw [if_pos hh, if_pos hh]
      refine ASim.bindPure (ASim.write hk2.good ha) (fun σ3 _ hk3 _ hn => ?_)
      have := hk1.next; have := hk2.next; have := hk3.next
      rw [← AVal.eraseKV_adset]
      refine ih _ σ3 k0 hk3.good (by omega) (by omega) (fun q hq => hfine q (by simp [hq])) ?_
      rw [hn]
      exact (hacc.append (hoy.append hoz hk1.next hk2.next) hk0 (by omega)).perm (AVal.addrs_adset _ _ _)
    · rw [if_neg hh, if_neg hh]; exact ASim.throw hk2.good _

omit hsc hrec in
theorem ItemsFine.aitems {y : AVal} (h : ItemsFine F S y) {kvs : List (AVal × AVal)} (hy : aitems y = some kvs) : FinePartsKV F S kvs := by
  cases y <;> cases hy
  exact h

theorem ASim.dictload (x : AVal) (t : Ty) (hg : G t) (σ : AMem) (hs : Good W C Bd σ.ls) (hb : b ≤ σ.next) (hx : FineParts F S x) :
    ASim W C Bd b (ValOwn F S σ.next) (adictload W C rec x t) (dictload W C rec' x.erase t) σ := by
  unfold adictload TL.dictload
  cases t with
  | dict kt vt =>
    dsimp only
    refine ASim.bind (ASim.lift hs (sat_resolve _ _)) (fun σ1 h h' hk1 hq => ?_)
    obtain ⟨rfl, hp⟩ := hq
    have hp := hp h rfl
    refine ASim.bind (ASim.lift hk1.good (Sat.dictValueHandler _ _ _ _)) (fun σ2 p p' hk2 hq => ?_)
    obtain ⟨rfl, hv, hpv, hcase⟩ := hq
    obtain ⟨keyF, valF⟩ := p
    dsimp only
    have hki : Installed C keyF := by
      rcases hcase with h | h <;> cases h
      · exact pick_installed hp
      · exact pick_installed hpv
    have hvi : ∀ h, valF = some h → pick W C vt = .ok h := by
      rcases hcase with h | h <;> cases h
      · intro h h'; cases h'; exact hpv
      · intro h h'; cases h'
    have hn1 := hk1.next; have hn2 := hk2.next
    refine ASim.bindPure (ASim.dictequivalence x σ2 hk2.good (by omega) hx) (fun σ3 x' hk3 _ hx' => ?_)
    obtain ⟨hx1, hx2⟩ := hx'
    have hn3 := hk3.next
    rw [← hx1, aitems_erase]
    refine ASim.rescue ?_ (fun σ4 e hk4 => ASim.rescue ?_ (fun σ5 e hk5 => ?_))
    · cases hit : aitems x' with
      | none => exact ASim.throw hk3.good _
      | some kvs =>
        dsimp only [Option.map_some]
        refine ASim.bindPure (ASim.new hk3.good) (fun σ5 a hk5 _ hn => ?_)
        obtain ⟨rfl, hn⟩ := hn
        refine ASim.bind (ASim.dictFast hsc hrec (hsc.closed.dictKey _ _ hg) (hsc.closed.dictVal _ _ hg) hki hvi (by omega) kvs [] σ5 (σ3.next + 1) hk5.good (by omega)
          (by omega) (hx2.aitems hit) Own.nil) (fun σ6 ys vs hk6 hys => ?_)
        obtain ⟨rfl, hown⟩ := hys
        exact ASim.pure hk6.good ⟨rfl, (hown.new (by have := hk6.next; omega)).mono (by omega) (Nat.le_refl _)⟩
    · have hn4 := hk4.next
      cases hit : aitems x' with
      | none => exact ASim.throw hk4.good _
      | some kvs =>
        dsimp only [Option.map_some]
        refine ASim.bindPure (ASim.new hk4.good) (fun σ5 a hk5 _ hn => ?_)
        obtain ⟨rfl, hn⟩ := hn
        refine ASim.bind (ASim.dictSlow hsc hrec (hsc.closed.dictKey _ _ hg) (hsc.closed.dictVal _ _ hg) (by omega) kvs [] σ5 (σ4.next + 1) hk5.good (by omega)
          (by omega) (hx2.aitems hit) Own.nil) (fun σ6 ys vs hk6 hys => ?_)
        obtain ⟨rfl, hown⟩ := hys
        exact ASim.pure hk6.good ⟨rfl, (hown.new (by have := hk6.next; omega)).mono (by omega) (Nat.le_refl _)⟩
    · split
      · exact ASim.throw hk5.good _
      · exact ASim.throw hk5.good _
  | _ => exact ASim.throw hs _

/-! ### Objects -/

omit hsc hrec in
theorem ASim.mangleLoop (nm : List (String × String)) (fe : Bool) {a : Nat} (ha : b ≤ a) (kvs : List (AVal × AVal)) :
    ∀ (r : List (AVal × AVal)) (σ : AMem), Good W C Bd σ.ls → FinePartsKV F S kvs → FinePartsKV F S r →
    ASim W C Bd b (fun _ => ExcRel (fun ys vs => AVal.eraseKV ys = vs ∧ FinePartsKV F S ys)) (amangleLoop nm fe a kvs r)
      (Pure.pure (mangleLoop nm fe (AVal.eraseKV kvs) (AVal.eraseKV r))) σ := by
  induction kvs with
  | nil => intro r σ hs _ hr; exact ASim.pure hs ⟨rfl, hr⟩
  | cons p kvs ih =>
    obtain ⟨k, x⟩ := p
    intro r σ hs hfine hr
    obtain ⟨hfk, hfk', hfx⟩ := hfine (k, x) (by simp)
    have hrest : FinePartsKV F S kvs := fun q hq => hfine q (by simp [hq])
    have keep : ASim W C Bd b (fun _ => ExcRel (fun ys vs => AVal.eraseKV ys = vs ∧ FinePartsKV F S ys)) (do awrite a; amangleLoop nm fe a kvs (adset r k x))
        (Pure.pure (TL.mangleLoop nm fe (AVal.eraseKV kvs) (dset (AVal.eraseKV r) k.erase x.erase))) σ := by
      refine ASim.bindPure (ASim.write hs ha) (fun σ3 _ hk3 _ hn => ?_)
      rw [← AVal.eraseKV_adset]
      exact ih _ σ3 hk3.good hrest (hr.adset hfk hfk' hfx)
    simp only [amangleLoop, AVal.eraseKV, TL.mangleLoop]
    cases hk : k.erase with
    | str n =>
      dsimp only
      by_cases h1 : ((nm.map (·.2)).contains n && (aget nm n).isNone) = true
      · rw [if_pos h1, if_pos h1]
        by_cases h2 : fe = true
        · rw [if_pos h2, if_pos h2]; exact ASim.pure hs rfl
        · rw [if_neg h2, if_neg h2]; exact ih r σ hs hrest hr
      · rw [if_neg h1, if_neg h1]
        cases h3 : aget nm n with
        | some n' =>
          dsimp only
          refine ASim.bindPure (ASim.write hs ha) (fun σ3 _ hk3 _ hn => ?_)
          have : AVal.eraseKV (adset r (.str n') x) = dset (AVal.eraseKV r) (.str n') x.erase := AVal.eraseKV_adset _ _ _
          rw [← this]
          exact ih _ σ3 hk3.good hrest (hr.adset (FineParts.empty rfl) (fun _ => rfl) hfx)
        | none => dsimp only; rw [hk] at keep; exact keep
    | _ => dsimp only; rw [hk] at keep; exact keep

omit hsc hrec in
theorem ASim.mangle_names (nm : List (String × String)) (fe : Bool) (x : AVal) (σ : AMem) (hs : Good W C Bd σ.ls) (hb : b ≤ σ.next) (hx : FineParts F S x) :
    ASim W C Bd b (fun _ => ExcRel (fun y v => y.erase = v ∧ ItemsFine F S y)) (amangle_names nm x fe) (Pure.pure (mangle_names nm x.erase fe)) σ := by
  unfold amangle_names TL.mangle_names
  by_cases h : nm.isEmpty = true
  · rw [if_pos h, if_pos h]; exact ASim.pure hs ⟨rfl, hx.items⟩
  · rw [if_neg h, if_neg h, aitems_erase]
    cases hit : aitems x with
    | none => exact ASim.pure hs rfl
    | some kvs =>
      dsimp only [Option.map_some]
      refine ASim.bindPure (ASim.new hs) (fun σ1 a hk1 _ hn => ?_)
      obtain ⟨rfl, hn⟩ := hn
      refine ASim.bindPure (ASim.mangleLoop nm fe hb kvs [] σ1 hk1.good (hx.items.aitems hit) (fun p hp => by cases hp)) (fun σ2 r hk2 _ hr => ?_)
      simp only [AVal.eraseKV] at hr
      refine ASim.pure hk2.good ?_
      cases r with
      | ok r =>
        cases hm : TL.mangleLoop nm fe (AVal.eraseKV kvs) [] with
        | ok r' => rw [hm] at hr; obtain ⟨rfl, h2⟩ := hr; exact ⟨rfl, h2⟩
        | error e => rw [hm] at hr; exact hr.elim
      | error e =>
        cases hm : TL.mangleLoop nm fe (AVal.eraseKV kvs) [] with
        | ok r' => rw [hm] at hr; exact hr.elim
        | error e => rw [hm] at hr; exact hr

omit hsc hrec in
theorem ASim.mangleOrRaise (tr : List (String × String)) (x : AVal) (t : Ty) (σ : AMem) (hs : Good W C Bd σ.ls) (hb : b ≤ σ.next) (hx : FineParts F S x) :
    ASim W C Bd b (fun _ y v => y.erase = v ∧ ItemsFine F S y) (amangleOrRaise C tr x t) (mangleOrRaise C tr x.erase t) σ := by
  unfold amangleOrRaise TL.mangleOrRaise
  refine ASim.bindPure (ASim.mangle_names tr C.failonextra x σ hs hb hx) (fun σ1 r hk1 _ hr => ?_)
  cases r with
  | ok y =>
    cases hm : TL.mangle_names tr x.erase C.failonextra with
    | ok v => rw [hm] at hr; exact ASim.pure hk1.good hr
    | error e => rw [hm] at hr; exact hr.elim
  | error e =>
    cases hm : TL.mangle_names tr x.erase C.failonextra with
    | ok v => rw [hm] at hr; exact hr.elim
    | error e' =>
      rw [hm] at hr
      have hr : e = e' := hr
      subst hr
      dsimp only
      split
      · exact ASim.throw hk1.good _
      · split
        · exact ASim.throw hk1.good _
        · exact ASim.throw hk1.good _

omit hsc hrec in
theorem aget_eraseN (ps : List (String × AVal)) (n : String) : aget (AVal.eraseN ps) n = (aget ps n).map AVal.erase := by
  induction ps with
  | nil => rfl
  | cons p ps ih =>
    obtain ⟨m, y⟩ := p
    simp only [AVal.eraseN, aget]
    split
    · rfl
    · exact ih

omit hsc hrec in
theorem aget_filter {ps : List (String × AVal)} {n m : String} (h : m ≠ n) : aget (ps.filter (fun p => decide (p.1 ≠ n))) m = aget ps m := by
  induction ps with
  | nil => rfl
  | cons p ps ih =>
    obtain ⟨l, y⟩ := p
    by_cases hl : l = n
    · subst hl
      rw [List.filter_cons_of_neg (by simp), ih]
      simp only [aget]
      rw [if_neg]
      simpa using fun e => h e.symm
    · rw [List.filter_cons_of_pos (by simpa using hl)]
      simp only [aget, ih]

omit hsc hrec in
theorem count_filter {ps : List (String × AVal)} {n : String} (a : Nat) :
    (AVal.addrsN (ps.filter (fun p => decide (p.1 ≠ n)))).count a ≤ (AVal.addrsN ps).count a := by
  induction ps with
  | nil => exact Nat.le_refl _
  | cons p ps ih =>
    obtain ⟨l, y⟩ := p
    by_cases hl : l = n
    · subst hl
      rw [List.filter_cons_of_neg (by simp)]
      simp only [AVal.addrsN, List.count_append]; omega
    · rw [List.filter_cons_of_pos (by simpa using hl)]
      simp only [AVal.addrsN, List.count_append]; omega

omit hsc hrec in
theorem count_aget {ps : List (String × AVal)} {n : String} {x : AVal} (h : aget ps n = some x) (a : Nat) :
    x.addrs.count a + (AVal.addrsN (ps.filter (fun p => decide (p.1 ≠ n)))).count a ≤ (AVal.addrsN ps).count a := by
  induction ps with
  | nil => cases h
  | cons p ps ih =>
    obtain ⟨l, y⟩ := p
    simp only [aget] at h
    by_cases hl : l = n
    · subst hl
      rw [if_pos (by simp)] at h
      cases h
      rw [List.filter_cons_of_neg (by simp)]
      have := count_filter (ps := ps) (n := l) a
      simp only [AVal.addrsN, List.count_append]; omega
    · rw [if_neg (by simpa using hl)] at h
      have := ih h
      rw [List.filter_cons_of_pos (by simpa using hl)]
      simp only [AVal.addrsN, List.count_append]; omega

/-- The attributes of the new instance. -/
def Filled (F : Prop) (S : Nat → Prop) (ps : List (String × AVal)) (k k' : Nat) (r : List (String × AVal)) : Prop :=
  (∀ a ∈ AVal.addrsN r, a ∈ AVal.addrsN ps ∨ S a ∨ (k ≤ a ∧ a < k')) ∧
  (F → ∀ a, (AVal.addrsN r).count a ≤ (AVal.addrsN ps).count a + if k ≤ a ∧ a < k' then 1 else 0)

omit hsc hrec in
theorem Filled.own {ps r : List (String × AVal)} {k0 k k' : Nat} (h : Filled F S ps k k' r) (hp : Own F S k0 k (AVal.addrsN ps)) (h0 : k0 ≤ k) (h1 : k ≤ k') :
    Own F S k0 k' (AVal.addrsN r) := by
  refine ⟨fun a ha => ?_, fun hF a => ?_⟩
  · rcases h.1 a ha with h | h | h
    · rcases hp.src a h with h | h
      · exact .inl h
      · exact .inr ⟨h.1, by omega⟩
    · exact .inl h
    · exact .inr ⟨by omega, h.2⟩
  · have h2 := h.2 hF a
    have h3 := hp.fresh hF a
    split at h2 <;> split at h3 <;> split <;> omega

omit hrec in
theorem ASim.fillField {cid : Nat} (hg : G (.obj cid)) {f : Field} (hf : f ∈ (W.cls cid).fields) (ps : List (String × AVal)) (σ : AMem) (hs : Good W C Bd σ.ls) :
    ASim W C Bd b (fun k' => ExcRel (fun r v => AVal.eraseN r = v ∧ (∀ a ∈ AVal.addrsN r, a ∈ AVal.addrsN ps ∨ S a ∨ (σ.next ≤ a ∧ a < k')) ∧
      (F → ∀ a, (AVal.addrsN r).count a + (AVal.addrsN (ps.filter (fun p => decide (p.1 ≠ f.name)))).count a ≤ (AVal.addrsN ps).count a + if σ.next ≤ a ∧ a < k' then 1 else 0)))
      (afillField O cid ps f) (Pure.pure (fillField (AVal.eraseN ps) f)) σ := by
  unfold afillField TL.fillField
  rw [aget_eraseN]
  have hcf := fun a => count_filter (ps := ps) (n := f.name) a
  cases hp : aget ps f.name with
  | some x =>
    refine ASim.pure hs ⟨rfl, fun a ha => .inl ?_, fun _ a => ?_⟩
    · have := aget_mem hp
      simp only [AVal.addrsN, List.append_nil] at ha
      exact AVal.mem_addrsN this ha
    · have := count_aget hp a
      simp only [AVal.addrsN, List.append_nil]; omega
  | none =>
    simp only [Option.map_none]
    cases hd : f.default with
    | some d =>
      dsimp only
      cases hsh : O.shared cid f.name with
      | some x =>
        have hxe := O.shared_erase cid f hf x hsh
        rw [hd] at hxe
        cases hxe
        refine ASim.pure hs ⟨rfl, fun a ha => .inr (.inl ?_), fun hF a => ?_⟩
        · simp only [AVal.addrsN, List.append_nil] at ha
          exact hsc.shared _ _ _ hsh a ha
        · have := (hsc.tidy hF cid hg).shared _ _ hsh
          have := hcf a
          simp only [AVal.addrsN, List.append_nil, *, List.count_nil]; omega
      | none =>
        dsimp only
        refine ASim.bindPure (ASim.newVal (F := F) (S := S) hs d) (fun σ1 y hk _ hy => ?_)
        obtain ⟨rfl, hown⟩ := hy
        refine ASim.pure hk.good ⟨rfl, fun a ha => .inr ?_, fun hF a => ?_⟩
        · simp only [AVal.addrsN, List.append_nil] at ha
          exact hown.src a ha
        · have h1 := hown.fresh hF a
          have := hcf a
          simp only [AVal.addrsN, List.append_nil]
          omega
    | none =>
      dsimp only
      split
      · exact ASim.pure hs rfl
      · refine ASim.pure hs ⟨rfl, fun a ha => (by cases ha), fun hF a => ?_⟩
        have := hcf a
        simp only [AVal.addrsN, List.count_nil]; omega

omit hsc hrec in
theorem afillFields_filter {cid : Nat} {fs : List Field} {n : String} (h : n ∉ fs.map (·.name)) (ps : List (String × AVal)) :
    afillFields O cid (ps.filter (fun p => decide (p.1 ≠ n))) fs = afillFields O cid ps fs := by
  induction fs with
  | nil => rfl
  | cons f fs ih =>
    simp only [List.map_cons, List.mem_cons, not_or] at h
    simp only [afillFields, afillField, ih h.2]
    rw [aget_filter (fun e => h.1 e.symm)]

omit hsc hrec in
theorem fillFields_filter {fs : List Field} {n : String} (h : n ∉ fs.map (·.name)) (ps : List (String × AVal)) :
    fillFields (AVal.eraseN (ps.filter (fun p => decide (p.1 ≠ n)))) fs = fillFields (AVal.eraseN ps) fs := by
  induction fs with
  | nil => rfl
  | cons f fs ih =>
    simp only [List.map_cons, List.mem_cons, not_or] at h
    simp only [TL.fillFields, TL.fillField, ih h.2]
    rw [aget_eraseN, aget_eraseN, aget_filter (fun e => h.1 e.symm)]

omit hrec in
theorem ASim.fillFields {cid : Nat} (hg : G (.obj cid)) (fs : List Field) : ∀ (ps : List (String × AVal)) (σ : AMem), (∀ f ∈ fs, f ∈ (W.cls cid).fields) →
    (F → (fs.map (·.name)).Nodup) → Good W C Bd σ.ls →
    ASim W C Bd b (fun k' => ExcRel (fun r v => AVal.eraseN r = v ∧ Filled F S ps σ.next k' r))
      (afillFields O cid ps fs) (Pure.pure (fillFields (AVal.eraseN ps) fs)) σ := by
  induction fs with
  | nil => intro ps σ _ _ hs; exact ASim.pure hs ⟨rfl, fun a ha => (by cases ha), fun _ a => by simp [AVal.addrsN]⟩
  | cons f fs ih =>
    intro ps σ hsub hnd hs
    have htail : ∃ ps2, afillFields O cid ps2 fs = afillFields O cid ps fs ∧ TL.fillFields (AVal.eraseN ps2) fs = TL.fillFields (AVal.eraseN ps) fs ∧
        (∀ a, (AVal.addrsN ps2).count a ≤ (AVal.addrsN ps).count a) ∧ (F → ps2 = ps.filter (fun p => decide (p.1 ≠ f.name))) := by
      by_cases hF : F
      · have := hnd hF
        simp only [List.map_cons, List.nodup_cons] at this
        exact ⟨_, afillFields_filter this.1 ps, fillFields_filter this.1 ps, fun a => count_filter a, fun _ => rfl⟩
      · exact ⟨ps, rfl, rfl, fun _ => Nat.le_refl _, fun h => absurd h hF⟩
    obtain ⟨ps2, h1, h2, h3, h4⟩ := htail
    simp only [afillFields, TL.fillFields]
    refine ASim.bindPure (ASim.fillField hsc hg (hsub f (by simp)) ps σ hs) (fun σ1 r hk1 _ hr => ?_)
    cases r with
    | error e =>
      cases hm : TL.fillField (AVal.eraseN ps) f with
      | ok v => rw [hm] at hr; exact hr.elim
      | error e' => rw [hm] at hr; exact ASim.pure hk1.good hr
    | ok r =>
      cases hm : TL.fillField (AVal.eraseN ps) f with
      | error e' => rw [hm] at hr; exact hr.elim
      | ok v =>
        rw [hm] at hr
        obtain ⟨rfl, hr1, hr2⟩ := hr
        dsimp only
        rw [← h1, ← h2]
        refine ASim.bindPure (ih ps2 σ1 (fun g hg => hsub g (by simp [hg])) (fun hF => by have := hnd hF; simp only [List.map_cons, List.nodup_cons] at this; exact this.2) hk1.good)
          (fun σ2 rs hk2 _ hrs => ?_)
        cases rs with
        | error e =>
          cases hm2 : TL.fillFields (AVal.eraseN ps2) fs with
          | ok v => rw [hm2] at hrs; exact hrs.elim
          | error e' => rw [hm2] at hrs; exact ASim.pure hk2.good hrs
        | ok rs =>
          cases hm2 : TL.fillFields (AVal.eraseN ps2) fs with
          | error e' => rw [hm2] at hrs; exact hrs.elim
          | ok vs =>
            rw [hm2] at hrs
            obtain ⟨rfl, hrs1, hrs2⟩ := hrs
            have hn1 := hk1.next
            have hn2 := hk2.next
            refine ASim.pure hk2.good ⟨AVal.eraseN_append _ _, fun a ha => ?_, fun hF a => ?_⟩
            · rw [AVal.addrsN_append] at ha
              rcases List.mem_append.1 ha with ha | ha
              · rcases hr1 a ha with h | h | h
                · exact .inl h
                · exact .inr (.inl h)
                · exact .inr (.inr ⟨h.1, by omega⟩)
              · rcases hrs1 a ha with h | h | h
                · exact .inl (List.count_pos_iff.1 (Nat.lt_of_lt_of_le (List.count_pos_iff.2 h) (h3 a)))
                · exact .inr (.inl h)
                · exact .inr (.inr ⟨by omega, h.2⟩)
            · have e1 := hr2 hF a
              have e2 := hrs2 hF a
              rw [h4 hF] at e2
              rw [AVal.addrsN_append, List.count_append]
              split at e1 <;> split at e2 <;> split <;> omega

omit hrec in
theorem ASim.construct {cid : Nat} (hg : G (.obj cid)) (ps : List (String × AVal)) (k0 : Nat) (σ : AMem) (hs : Good W C Bd σ.ls) (hb : b ≤ σ.next) (h0 : k0 ≤ σ.next)
    (hp : Own F S k0 σ.next (AVal.addrsN ps)) :
    ASim W C Bd b (fun k' => ExcRel (ValOwn F S k0 k')) (aconstruct O cid ps) (Pure.pure (construct W cid (AVal.eraseN ps))) σ := by
  have hnd : F → ((W.cls cid).fields.map (·.name)).Nodup := fun hF => (hsc.tidy hF cid hg).names
  have one : ∀ (l : List Nat) (k' : Nat), σ.next + 1 ≤ k' → (∀ a ∈ l, S a ∨ (k0 ≤ a ∧ a < k')) → (F → ∀ a, l.count a ≤ (AVal.addrsN ps).count a + if σ.next + 1 ≤ a ∧ a < k' then 1 else 0) →
      Own F S k0 k' (σ.next :: l) := by
    intro l k' hk' h1 h2
    refine ⟨fun a ha => ?_, fun hF a => ?_⟩
    · rcases List.mem_cons.1 ha with rfl | ha
      · exact .inr ⟨h0, hk'⟩
      · exact h1 a ha
    · have e1 := h2 hF a
      have e2 := hp.fresh hF a
      rw [List.count_cons]
      by_cases ha : σ.next = a
      · subst ha
        rw [if_neg (by omega)] at e1
        rw [if_neg (by omega)] at e2
        rw [if_pos (by simp), if_pos (by omega)]; omega
      · rw [if_neg (by simpa using ha)]
        split at e1 <;> split at e2 <;> split <;> omega
  unfold aconstruct TL.construct
  dsimp only
  have fill : ∀ (fin : Nat → List (String × AVal) → AL (Except ExcClass AVal)) (fin' : List (String × Val) → Except ExcClass Val),
      (∀ σ2 r, Kept W C Bd b σ σ2 → σ.next + 1 ≤ σ2.next → Own F S k0 σ2.next (σ.next :: AVal.addrsN r) →
        (F → ∀ a, (AVal.addrsN r).count a ≤ (AVal.addrsN ps).count a + if σ.next + 1 ≤ a ∧ a < σ2.next then 1 else 0) →
        ASim W C Bd b (fun k' => ExcRel (ValOwn F S k0 k')) (fin σ.next r) (Pure.pure (fin' (AVal.eraseN r))) σ2) →
      ASim W C Bd b (fun k' => ExcRel (ValOwn F S k0 k')) (do
        let a ← anew
        awrite a
        match ← afillFields O cid ps (W.cls cid).fields with
        | .error e => Pure.pure (.error e)
        | .ok fs => fin a fs)
        (Pure.pure (match TL.fillFields (AVal.eraseN ps) (W.cls cid).fields with
          | .error e => .error e
          | .ok fs => fin' fs)) σ := by
    intro fin fin' hfin
    refine ASim.bindPure (ASim.new hs) (fun σ1 a hk1 _ hn => ?_)
    obtain ⟨rfl, hn⟩ := hn
    refine ASim.bindPure (ASim.write hk1.good hb) (fun σ2 _ hk2 _ hn2 => ?_)
    refine ASim.bindPure (ASim.fillFields hsc hg _ ps σ2 (fun f hf => hf) hnd hk2.good) (fun σ3 r hk3 _ hr => ?_)
    cases r with
    | error e =>
      cases hm : TL.fillFields (AVal.eraseN ps) (W.cls cid).fields with
      | ok v => rw [hm] at hr; exact hr.elim
      | error e' => rw [hm] at hr; exact ASim.pure hk3.good hr
    | ok r =>
      cases hm : TL.fillFields (AVal.eraseN ps) (W.cls cid).fields with
      | error e' => rw [hm] at hr; exact hr.elim
      | ok v =>
        rw [hm] at hr
        obtain ⟨rfl, hr⟩ := hr
        have hn3 := hk3.next
        rw [hn2, hn] at hr
        refine hfin σ3 r ((hk1.trans hk2).trans hk3) (by omega) ?_ hr.2
        refine one _ _ (by omega) (fun a ha => ?_) hr.2
        rcases hr.1 a ha with h | h | h
        · exact (hp.src a h).imp id (fun h => ⟨h.1, by omega⟩)
        · exact .inl h
        · exact .inr ⟨by omega, h.2⟩
  have hobj : ∀ (k : ObjKind), ASim W C Bd b (fun k' => ExcRel (ValOwn F S k0 k')) (if ps.all (fun p => isInitArg (W.cls cid) p.1) then do
        let a ← anew
        awrite a
        match ← afillFields O cid ps (W.cls cid).fields with
        | .error e => Pure.pure (.error e)
        | .ok fs => do
          let r ← ahook O cid fs
          Pure.pure (r.map (.inst a cid))
      else Pure.pure (.error .type)) (Pure.pure (if (AVal.eraseN ps).all (fun p => isInitArg (W.cls cid) p.1) then
        match TL.fillFields (AVal.eraseN ps) (W.cls cid).fields with
        | .error e => .error e
        | .ok fs => (W.initHook cid fs).map (.inst cid)
      else .error .type)) σ := by
    intro _
    have hall : (AVal.eraseN ps).all (fun p => isInitArg (W.cls cid) p.1) = ps.all (fun p => isInitArg (W.cls cid) p.1) := by
      rw [AVal.eraseN_eq, List.all_map]; rfl
    rw [hall]
    by_cases h : ps.all (fun p => isInitArg (W.cls cid) p.1) = true
    · rw [if_pos h, if_pos h]
      refine fill (fun a fs => do
          let r ← ahook O cid fs
          Pure.pure (r.map (.inst a cid))) (fun fs => (W.initHook cid fs).map (.inst cid)) ?_
      intro σ2 r hk2 hle hown hcount
      have he := O.hook_erase cid σ2.next r
      cases hh : O.hook cid σ2.next r with
      | error e =>
        rw [hh] at he
        rw [← he]
        have : (do let r ← ahook O cid r; Pure.pure (r.map (.inst σ.next cid)) : AL (Except ExcClass AVal)) σ2 = .ok (.error e) σ2 := by
          rw [M.bind_apply]; simp only [ahook, hh]; rfl
        rw [asim_iff, this]
        exact .ok (Kept.refl hk2.good) rfl
      | ok p =>
        obtain ⟨r', k'⟩ := p
        rw [hh] at he
        rw [← he]
        have : (do let r ← ahook O cid r; Pure.pure (r.map (.inst σ.next cid)) : AL (Except ExcClass AVal)) σ2 = .ok (.ok (.inst σ.next cid r')) { σ2 with next := k' } := by
          rw [M.bind_apply]; simp only [ahook, hh]; rfl
        obtain ⟨hk', hmem⟩ := O.hook_own cid σ2.next r r' k' hh
        rw [asim_iff, this]
        refine ASimRes.ok (r := Except.ok (Val.inst cid (AVal.eraseN r'))) (σ' := { σ2 with next := k' }) ⟨hk', ⟨[], rfl, fun _ h => (by cases h)⟩, hk2.good⟩ ⟨rfl, ?_⟩
        show Own F S k0 k' (σ.next :: AVal.addrsN r')
        refine one _ _ (by omega) (fun a ha => ?_) (fun hF a => ?_)
        · rcases hmem a ha with h | h
          · exact (hown.src a (List.mem_cons_of_mem _ h)).imp id (fun h => ⟨h.1, by omega⟩)
          · exact .inr ⟨by omega, h.2⟩
        · have e1 := (hsc.tidy hF cid hg).hook _ _ _ _ hh a
          have e2 := hcount hF a
          split at e1 <;> split at e2 <;> split <;> omega
    · rw [if_neg h, if_neg h]; exact ASim.pure hs rfl
  cases hk : (W.cls cid).kind with
  | typeddict =>
    dsimp only
    refine ASim.bindPure (ASim.new hs) (fun σ1 a hk1 _ hn => ?_)
    obtain ⟨rfl, hn⟩ := hn
    refine ASim.bindPure (ASim.write hk1.good hb) (fun σ2 _ hk2 _ hn2 => ?_)
    refine ASim.pure hk2.good ⟨by simp only [AVal.erase, AVal.eraseKV_strs], ?_⟩
    simp only [AVal.addrs, AVal.addrsKV_strs]
    exact one _ _ (by omega) (fun a ha => (hp.src a ha).imp id (fun h => ⟨h.1, by omega⟩)) (fun _ a => by omega)
  | namedtuple =>
    dsimp only
    have := fill (fun a fs => Pure.pure (.ok (.nt a cid fs))) (fun fs => .ok (.nt cid fs)) (fun σ2 r hk2 _ hown _ => ASim.pure hk2.good ⟨rfl, hown⟩)
    have e1 : (do
        let a ← anew
        awrite a
        let r ← afillFields O cid ps (W.cls cid).fields
        Pure.pure (r.map (.nt a cid)) : AL (Except ExcClass AVal)) = (do
        let a ← anew
        awrite a
        match ← afillFields O cid ps (W.cls cid).fields with
        | .error e => Pure.pure (.error e)
        | .ok fs => Pure.pure (.ok (.nt a cid fs))) := by
      congr 1; funext a; congr 1; funext _; congr 1; funext r; cases r <;> rfl
    have e2 : (TL.fillFields (AVal.eraseN ps) (W.cls cid).fields).map (Val.nt cid) = (match TL.fillFields (AVal.eraseN ps) (W.cls cid).fields with
          | .error e => .error e
          | .ok fs => .ok (.nt cid fs)) := by
      cases TL.fillFields (AVal.eraseN ps) (W.cls cid).fields <;> rfl
    rw [e1, e2]
    exact this
  | dataclass => exact hobj .dataclass
  | attrs => exact hobj .attrs

end handlers

end TL
