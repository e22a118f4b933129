import Verif.Lemmas.LoadObjects
/-!
# The loader with object identity: the handlers
-/

namespace TL

set_option linter.unusedSectionVars false

/-- The keys of the dictionaries in the data are plain values (strings, numbers, ..., not tuples or objects). -/
def PlainKeys (v : Val) : Prop := ∀ kvs, Within v (.dict kvs) → ∀ p ∈ kvs, p.1.isAtom = true

/-- Constructing an instance of the class uses no container twice: the names of its fields are distinct, defaults that are containers are made by factories, and the
code of the class does not put anything at two places, nor objects that existed before. -/
structure Tidy {W : World} (O : LObjects W) (c : Nat) : Prop where
  names : ((W.cls c).fields.map (·.name)).Nodup
  shared : ∀ n x, O.shared c n = some x → x.addrs = []
  hook : ∀ k fs r k', O.hook c k fs = .ok (r, k') → ∀ a, (AVal.addrsN r).count a ≤ (AVal.addrsN fs).count a + if k ≤ a ∧ a < k' then 1 else 0

/-- What the simulation needs to know about the program: the types that can be met are in `G`, the objects that exist in `S`; and if `F`, that no type lets objects through. -/
structure Scene (W : World) (C : Config) (G : Ty → Prop) (Bd : String → Ty → Prop) (O : LObjects W) (F : Prop) (S : Nat → Prop) : Prop where
  dflt : C.Default
  closed : Closed W C G Bd
  shared : ∀ c n x, O.shared c n = some x → ∀ a ∈ x.addrs, S a
  noAny : F → ¬ G .any
  lits : F → ∀ vs, G (.lit vs) → ∀ l ∈ vs, LitVal l = true
  tidy : F → ∀ c, G (.obj c) → Tidy O c

/-- Parts of the data. -/
def FineParts (F : Prop) (S : Nat → Prop) (x : AVal) : Prop := (∀ a ∈ x.addrs, S a) ∧ (F → x.addrs = [] ∨ PlainKeys x.erase)
def FinePartsKV (F : Prop) (S : Nat → Prop) (kvs : List (AVal × AVal)) : Prop := ∀ p ∈ kvs, FineParts F S p.1 ∧ (F → p.1.addrs = []) ∧ FineParts F S p.2

/-- The loaded value. -/
def ValOwn (F : Prop) (S : Nat → Prop) (k k' : Nat) (y : AVal) (v : Val) : Prop := y.erase = v ∧ Own F S k k' y.addrs

section fine
variable {F : Prop} {S : Nat → Prop}

theorem FineParts.empty {x : AVal} (h : x.addrs = []) : FineParts F S x := ⟨fun a ha => (by rw [h] at ha; cases ha), fun _ => .inl h⟩
theorem PlainKeys.sub {v w : Val} (h : PlainKeys v) (hw : Within v w) : PlainKeys w := fun kvs hk => h kvs (hw.trans hk)
theorem FineParts.part {x y : AVal} (h : FineParts F S x) (ha : ∀ a ∈ y.addrs, a ∈ x.addrs) (hw : Within x.erase y.erase) : FineParts F S y := by
  refine ⟨fun a hy => h.1 a (ha a hy), fun hF => ?_⟩
  rcases h.2 hF with h | h
  · left
    apply List.eq_nil_iff_forall_not_mem.2
    intro a hy
    have := ha a hy
    rw [h] at this; cases this
  · exact .inr (h.sub hw)
theorem FineParts.iter {x : AVal} (h : FineParts F S x) {xs : List AVal} (hx : apyIter x = some xs) : ∀ y ∈ xs, FineParts F S y := by
  intro y hy
  refine h.part (fun a ha => apyIter_addrs hx hy ha) (.elem (xs := AVal.eraseL xs) .self (by rw [apyIter_erase, hx]; rfl) ?_)
  rw [AVal.eraseL_eq]
  exact List.mem_map.2 ⟨y, hy, rfl⟩
theorem FineParts.dict {a : Nat} {kvs : List (AVal × AVal)} (h : FineParts F S (.dict a kvs)) : FinePartsKV F S kvs := by
  intro p hp
  have hm : (p.1.erase, p.2.erase) ∈ AVal.eraseKV kvs := by rw [AVal.eraseKV_eq]; exact List.mem_map.2 ⟨p, hp, rfl⟩
  refine ⟨h.part (fun b hb => List.mem_cons_of_mem _ (AVal.mem_addrsKV hp (.inl hb))) (.elem .self rfl ?_), fun hF => ?_,
    h.part (fun b hb => List.mem_cons_of_mem _ (AVal.mem_addrsKV hp (.inr hb))) (.value .self (.inl ⟨_, _, rfl, hm⟩))⟩
  · exact List.mem_map.2 ⟨_, hm, rfl⟩
  · rcases h.2 hF with h | h
    · cases h
    · exact AVal.addrs_of_atom (h _ .self _ hm)
theorem FineParts.ns {a : Nat} {fs : List (String × AVal)} (h : FineParts F S (.ns a fs)) : FinePartsKV F S (fs.map (fun p => (.str p.1, p.2))) := by
  intro p hp
  obtain ⟨q, hq, rfl⟩ := List.mem_map.1 hp
  have hm : (q.1, q.2.erase) ∈ AVal.eraseN fs := by rw [AVal.eraseN_eq]; exact List.mem_map.2 ⟨q, hq, rfl⟩
  exact ⟨FineParts.empty rfl, fun _ => rfl, h.part (fun b hb => List.mem_cons_of_mem _ (AVal.mem_addrsN hq hb)) (.value .self (.inr ⟨_, _, rfl, hm⟩))⟩
theorem FinePartsKV.adset {r : List (AVal × AVal)} (h : FinePartsKV F S r) {k x : AVal} (hk : FineParts F S k) (hk' : F → k.addrs = []) (hx : FineParts F S x) : FinePartsKV F S (adset r k x) := by
  induction r with
  | nil => intro p hp; simp [TL.adset] at hp; subst hp; exact ⟨hk, hk', hx⟩
  | cons q r ih =>
    obtain ⟨k', y⟩ := q
    intro p hp
    simp only [TL.adset] at hp
    split at hp
    · rcases List.mem_cons.1 hp with rfl | hp
      · have := h (k', y) (by simp); exact ⟨this.1, this.2.1, hx⟩
      · exact h p (by simp [hp])
    · rcases List.mem_cons.1 hp with rfl | hp
      · exact h _ (by simp)
      · exact ih (fun p hp => h p (by simp [hp])) p hp
theorem ValOwn.pass {k k' : Nat} {x : AVal} (h : FineParts F S x) (hF : F → x.addrs = []) : ValOwn F S k k' x x.erase := ⟨rfl, .old h.1 hF⟩
end fine

section handlers
variable {W : World} {C : Config} {G : Ty → Prop} {Bd : String → Ty → Prop} {O : LObjects W} {F : Prop} {S : Nat → Prop} {b : Nat}
variable (hsc : Scene W C G Bd O F S) {rec : ARec} {rec' : Rec}
  (hrec : ∀ h x t σ, G t → Installed C h → Good W C Bd σ.ls → b ≤ σ.next → FineParts F S x → (F → x.addrs = [] ∨ pick W C t = .ok h) →
    ASim W C Bd b (ValOwn F S σ.next) (rec h x t) (rec' h x.erase t) σ)
include hsc hrec

omit hrec in
theorem sat_loadResolve (v : Val) {t : Ty} (hg : G t) : Sat W C Bd (loadResolve W C v t) (fun o => ∀ h, o = .ok h → pick W C t = .ok h) := by
  intro s hs
  unfold Post
  rw [loadResolve_eq hs.coh]
  cases hp : pick W C t with
  | ok h => exact ⟨hs.cacheReg hsc.closed hg hp, fun h' e => by cases e; rfl⟩
  | error c => exact ⟨hs, fun h' e => by cases e⟩

omit hsc hrec in
theorem sat_resolve (t : Ty) (m : Exc) : Sat W C Bd (resolve W C t m) (fun o => ∀ h, o = .ok h → pick W C t = .ok h) :=
  (Sat.resolve t m).mono (fun o ho h e => by
    subst e
    cases hp : pick W C t with
    | ok h' => rw [hp] at ho; cases ho; rfl
    | error c => rw [hp] at ho; cases ho)

theorem ASim.loadWith (x : AVal) {t : Ty} (hg : G t) (a : Option Annotation) (σ : AMem) (hs : Good W C Bd σ.ls) (hb : b ≤ σ.next) (hx : FineParts F S x) :
    ASim W C Bd b (ValOwn F S σ.next) (aloadWith W C rec x t a) (loadWith W C rec' x.erase t a) σ := by
  unfold aloadWith TL.loadWith
  refine ASim.bind (ASim.lift hs (sat_loadResolve hsc _ hg)) (fun σ1 h h' hk hq => ?_)
  obtain ⟨rfl, hp⟩ := hq
  have hp := hp h rfl
  refine ASim.rescue ?_ (fun σ2 e hk2 => ?_)
  · exact (hrec h x t σ1 hg (pick_installed hp) hk.good (Nat.le_trans hb hk.next) hx (fun _ => .inr hp)).mono (fun k' y v h1 hv => ⟨hv.1, hv.2.mono hk.next (Nat.le_refl _)⟩)
  · split
    · exact ASim.throw hk2.good _
    · exact ASim.throw hk2.good _

omit hsc hrec in
theorem sat_get : Sat W C Bd (M.get : L LState) (fun o => ∀ s, o = .ok s → Good W C Bd s) := fun s hs => ⟨hs, fun s' e => by cases e; exact hs⟩

theorem ASim.forwardrefload (x : AVal) (t : Ty) (σ : AMem) (hs : Good W C Bd σ.ls) (hb : b ≤ σ.next) (hx : FineParts F S x) :
    ASim W C Bd b (ValOwn F S σ.next) (aforwardrefload W C rec x t) (forwardrefload W C rec' x.erase t) σ := by
  unfold aforwardrefload TL.forwardrefload
  split
  · rename_i n
    refine ASim.bind (ASim.lift hs sat_get) (fun σ1 s s' hk hq => ?_)
    obtain ⟨rfl, hgs⟩ := hq
    have hgs := hgs s rfl
    cases hf : s.frefs with
    | none => exact ASim.throw hk.good _
    | some fr =>
      dsimp only
      cases hn : aget fr n with
      | none => exact ASim.throw hk.good _
      | some t' =>
        dsimp only
        have hg : G t' := hsc.closed.bound n t' (hgs.bound n t' ⟨fr, hf, hn⟩)
        exact (ASim.loadWith hsc hrec x hg _ σ1 hk.good (Nat.le_trans hb hk.next) hx).mono (fun k' y v h1 hv => ⟨hv.1, hv.2.mono hk.next (Nat.le_refl _)⟩)
  · rename_i hne
    cases t <;> first | exact ASim.throw hs _ | exact absurd rfl (hne _)

theorem ASim.newtypeload (x : AVal) (t : Ty) (hg : G t) (σ : AMem) (hs : Good W C Bd σ.ls) (hb : b ≤ σ.next) (hx : FineParts F S x) :
    ASim W C Bd b (ValOwn F S σ.next) (anewtypeload W C rec x t) (newtypeload W C rec' x.erase t) σ := by
  unfold anewtypeload TL.newtypeload
  split
  · exact ASim.loadWith hsc hrec x (hsc.closed.newtype _ _ hg) _ σ hs hb hx
  · rename_i hne
    cases t <;> first | exact ASim.throw hs _ | exact absurd rfl (hne _ _)

/-! ### Leaves -/

omit hsc hrec in
theorem addrs_basic {x : AVal} (h : C.isBasic (typeOf x.erase) = true) : x.addrs = [] := by
  cases hx : typeOf x.erase with
  | prim p => exact AVal.addrs_prim hx
  | _ => rw [hx] at h; simp [Config.isBasic] at h

omit hsc hrec in
theorem addrs_isInst {p : Prim} {x : AVal} (h : isInst p x.erase = true) : x.addrs = [] := by
  cases x with
  | atom => rfl
  | _ => simp [AVal.erase, isInst] at h

omit hsc hrec in
theorem pyEq_lit_atom {v l : Val} (hl : LitVal l = true) (h : pyEq l v = true) : v.isAtom = true := by
  cases v <;> first | rfl | (exfalso; cases l <;> simp [LitVal] at hl <;> simp [pyEq, numKey] at h)

omit hsc hrec in
theorem sat_of_lift {o : Except Exc Val} : Sat W C Bd (M.lift o : L Val) (fun _ => True) := Sat.lift trivial

omit hrec in
theorem ASim.literalload (x : AVal) (t : Ty) (hg : G t) (σ : AMem) (hs : Good W C Bd σ.ls) (hx : FineParts F S x) :
    ASim W C Bd b (ValOwn F S σ.next) (aliteralload x t) (literalload x.erase t) σ := by
  unfold aliteralload TL.literalload
  split
  · rename_i vs
    dsimp only
    by_cases hin : pyIn x.erase vs = true
    · rw [if_pos hin, if_pos hin]
      refine ASim.pure hs (ValOwn.pass hx (fun hF => ?_))
      obtain ⟨l, hl, he⟩ : ∃ l ∈ vs, pyEq l x.erase = true := by
        simpa [pyIn, List.any_eq_true] using hin
      exact AVal.addrs_of_atom (pyEq_lit_atom (hsc.lits hF vs hg l hl) he)
    · rw [if_neg hin, if_neg hin]; exact ASim.throw hs _
  · rename_i hne
    cases t <;> first | exact ASim.throw hs _ | exact absurd rfl (hne _)

omit hsc hrec in
theorem ASim.leaf {m : L Val} {o : Except Exc Val} (hm : m = M.lift o) (σ : AMem) (hs : Good W C Bd σ.ls) :
    ASim W C Bd b (ValOwn F S σ.next) (aleaf m) m σ := by
  subst hm
  unfold aleaf
  have : (M.lift o : L Val) = (M.lift o >>= fun r => Pure.pure r) := by cases o <;> rfl
  rw [this]
  conv => arg 6; rw [← this]
  refine ASim.bind (ASim.lift hs sat_of_lift) (fun σ1 a r hk hq => ?_)
  obtain ⟨rfl, _⟩ := hq
  exact (ASim.newVal hk.good a).mono (fun k' y v h1 hv => ⟨hv.1, hv.2.mono hk.next (Nat.le_refl _)⟩)

omit hsc hrec in
theorem ASim.called {m : L Val} {o : Except Exc Val} (hm : m = M.lift o) {x : AVal} {t : Ty} (hx : FineParts F S x) (hid : ∀ n u, t = .newtype n u → (∀ r, o = .ok r → r = x.erase) ∧
    (F → x.addrs = [])) (σ : AMem) (hs : Good W C Bd σ.ls) : ASim W C Bd b (ValOwn F S σ.next) (alift m >>= acalled t x) m σ := by
  subst hm
  have : (M.lift o : L Val) = (M.lift o >>= fun r => Pure.pure r) := by cases o <;> rfl
  conv => arg 7; rw [this]
  refine ASim.bind (ASim.lift (R := fun p => p = o) hs (Sat.lift rfl)) (fun σ1 a r hk hq => ?_)
  obtain ⟨rfl, ho⟩ := hq
  have key : ASim W C Bd b (ValOwn F S σ.next) (anewVal a) (Pure.pure a) σ1 :=
    (ASim.newVal hk.good a).mono (fun k' y v h1 hv => ⟨hv.1, hv.2.mono hk.next (Nat.le_refl _)⟩)
  cases t <;> first | exact key | skip
  obtain ⟨h1, h2⟩ := hid _ _ rfl
  rw [h1 a ho.symm]
  exact ASim.pure hk.good (ValOwn.pass hx h2)

omit hsc hrec in
theorem picked_basic {t : Ty} {h : Handler} (hp : Picked W C t h) (hh : h = .basicload) : ∃ p, t = .prim p := by
  cases hp with
  | none => cases hh
  | basic => exact ⟨_, rfl⟩
  | coll => rename_i k _; cases k <;> cases hh
  | obj => rename_i c; cases hk : (W.cls c).kind <;> rw [hk] at hh <;> cases hh
  | bare hor => subst hh; simp at hor
  | _ => cases hh

omit hrec in
theorem ASim.basicload (x : AVal) (t : Ty) (σ : AMem) (hs : Good W C Bd σ.ls) (hx : FineParts F S x) (hp : F → x.addrs = [] ∨ pick W C t = .ok .basicload) :
    ASim W C Bd b (ValOwn F S σ.next) (abasicload W C x t) (basicload W C x.erase t) σ := by
  by_cases ht : typeOf x.erase ≠ t
  · obtain ⟨o, ho⟩ := leaf_lift (W := W) (C := C) (h := .basicload) rfl x.erase t
    have ho : TL.basicload W C x.erase t = M.lift o := ho (fun _ _ _ => M.diverge)
    unfold abasicload
    rw [if_pos ht]
    refine ASim.called ho hx ?_ σ hs
    rintro n u rfl
    refine ⟨fun r hr => ?_, fun hF => (hp hF).resolve_right (by rw [pick_newtype hsc.dflt]; intro h; cases h)⟩
    subst hr
    have h1 : TL.basicload W C x.erase (.newtype n u) σ.ls = .ok r σ.ls := by rw [ho]; rfl
    unfold TL.basicload at h1
    rw [if_pos ht] at h1
    split at h1
    · simp only [pyCall] at h1; cases h1; rfl
    · cases h1
  · unfold abasicload TL.basicload
    rw [if_neg ht, if_neg ht]
    refine ASim.pure hs (ValOwn.pass hx (fun hF => ?_))
    have ht : typeOf x.erase = t := by simpa using ht
    rcases hp hF with h | h
    · exact h
    · obtain ⟨p, rfl⟩ := picked_basic (picked hsc.dflt h) rfl
      exact AVal.addrs_prim ht

omit hrec in
theorem ASim.strconstructload (x : AVal) (t : Ty) (σ : AMem) (hs : Good W C Bd σ.ls) (hx : FineParts F S x) (hp : F → x.addrs = [] ∨ pick W C t = .ok .strconstructload) :
    ASim W C Bd b (ValOwn F S σ.next) (astrconstructload W x t) (strconstructload W x.erase t) σ := by
  obtain ⟨o, ho⟩ := leaf_lift (W := W) (C := C) (h := .strconstructload) rfl x.erase t
  have ho : TL.strconstructload W x.erase t = M.lift o := ho (fun _ _ _ => M.diverge)
  unfold astrconstructload
  refine ASim.called ho hx ?_ σ hs
  rintro n u rfl
  refine ⟨fun r hr => ?_, fun hF => (hp hF).resolve_right (by rw [pick_newtype hsc.dflt]; intro h; cases h)⟩
  subst hr
  have h1 : TL.strconstructload W x.erase (.newtype n u) σ.ls = .ok r σ.ls := by rw [ho]; rfl
  unfold TL.strconstructload at h1
  simp only [pyCall] at h1; cases h1; rfl

/-! ### Iterables -/

theorem ASim.iterElem {h : Handler} {et : Ty} (hg : G et) (hp : pick W C et = .ok h) (x : AVal) (σ : AMem) (hs : Good W C Bd σ.ls) (hb : b ≤ σ.next) (hx : FineParts F S x) :
    ASim W C Bd b (ValOwn F S σ.next) (aiterElem C rec h et x) (iterElem C rec' h et x.erase) σ := by
  have hr := hrec h x et σ hg (pick_installed hp) hs hb hx (fun _ => .inr hp)
  unfold aiterElem TL.iterElem
  cases et with
  | prim p =>
    dsimp only
    by_cases h1 : C.isBasic (.prim p) = true
    · rw [if_pos h1, if_pos h1]
      by_cases h2 : isInst p x.erase = true
      · rw [if_pos h2, if_pos h2]; exact ASim.pure hs (ValOwn.pass hx (fun _ => addrs_isInst h2))
      · rw [if_neg h2, if_neg h2]; exact hr
    · rw [if_neg h1, if_neg h1]; exact hr
  | union ts =>
    dsimp only
    by_cases h1 : ts.all C.isBasic = true
    · rw [if_pos h1, if_pos h1]
      by_cases h2 : typeOf x.erase ∈ ts
      · rw [if_pos h2, if_pos h2]
        exact ASim.pure hs (ValOwn.pass hx (fun _ => addrs_basic (C := C) (List.all_eq_true.1 h1 _ h2)))
      · rw [if_neg h2, if_neg h2]; exact hr
    · rw [if_neg h1, if_neg h1]; exact hr
  | _ => exact hr

omit hsc hrec in
theorem acollAdd_spec {k : SeqKind} {acc : List AVal} {y : AVal} :
    match acollAdd W k acc y with
    | .ok acc' => collAdd W k (AVal.eraseL acc) y.erase = .ok (AVal.eraseL acc') ∧ (acc' = acc ∨ acc' = acc ++ [y])
    | .error c => collAdd W k (AVal.eraseL acc) y.erase = .error c := by
  unfold acollAdd collAdd setAdd
  by_cases h1 : k.isSet = true
  · rw [if_pos h1, if_pos h1]
    by_cases h2 : W.hash y.erase = true
    · rw [if_pos h2, if_pos h2]
      by_cases h3 : pyIn y.erase (AVal.eraseL acc) = true
      · rw [if_pos h3, if_pos h3]; exact ⟨rfl, .inl rfl⟩
      · rw [if_neg h3, if_neg h3]; exact ⟨by simp [AVal.eraseL_eq], .inr rfl⟩
    · rw [if_neg h2, if_neg h2]
  · rw [if_neg h1, if_neg h1]; exact ⟨by simp [AVal.eraseL_eq], .inr rfl⟩

theorem ASim.iterElems {h : Handler} (k : SeqKind) {et : Ty} (hg : G et) (hp : pick W C et = .ok h) (v : Val) (t : Ty) {a : Nat} (ha : b ≤ a) (xs : List AVal) :
    ∀ (i : Nat) (acc : List AVal) (σ : AMem) (k0 : Nat), Good W C Bd σ.ls → b ≤ σ.next → k0 ≤ σ.next → (∀ x ∈ xs, FineParts F S x) →
    Own F S k0 σ.next (AVal.addrsL acc) →
    ASim W C Bd b (fun k' ys vs => AVal.eraseL ys = vs ∧ Own F S k0 k' (AVal.addrsL ys)) (aiterElems W C rec h k et v t a xs i acc)
      (iterElems W C rec' h k et v t (AVal.eraseL xs) i (AVal.eraseL acc)) σ := by
  induction xs with
  | nil => intro i acc σ k0 hs hb hk0 _ hacc; exact ASim.pure hs ⟨rfl, hacc⟩
  | cons x xs ih =>
    intro i acc σ k0 hs hb hk0 hx hacc
    simp only [aiterElems, AVal.eraseL, TL.iterElems]
    refine ASim.handle (ASim.iterElem hsc hrec hg hp x σ hs hb (hx x (by simp))) (fun σ1 y r hk hy => ?_) (fun σ1 e hk => ?_)
    · obtain ⟨rfl, hown⟩ := hy
      have hadd := acollAdd_spec (W := W) (k := k) (acc := acc) (y := y)
      cases hc : acollAdd W k acc y with
      | error c => rw [hc] at hadd; rw [hadd]; exact ASim.throw hk.good _
      | ok acc' =>
        rw [hc] at hadd
        rw [hadd.1]
        dsimp only
        refine ASim.bindPure (ASim.write hk.good ha) (fun σ2 _ hk2 _ hn => ?_)
        refine ih (i + 1) acc' σ2 k0 hk2.good (by have := hk.next; have := hk2.next; omega) (by have := hk.next; have := hk2.next; omega) (fun z hz => hx z (by simp [hz])) ?_
        rw [hn]
        rcases hadd.2 with rfl | rfl
        · exact hacc.mono (Nat.le_refl _) hk.next
        · rw [AVal.addrsL_append]
          simp only [AVal.addrsL, List.append_nil]
          exact hacc.append hown hk0 hk.next
    · split
      · exact ASim.pure hk.good ⟨rfl, hacc.mono (Nat.le_refl _) hk.next⟩
      · exact ASim.throw hk.good _

theorem ASim.iterload (k : SeqKind) (x : AVal) (t : Ty) (hg : G t) (σ : AMem) (hs : Good W C Bd σ.ls) (hb : b ≤ σ.next) (hx : FineParts F S x) :
    ASim W C Bd b (ValOwn F S σ.next) (aiterload W C rec k x t) (iterload W C rec' k x.erase t) σ := by
  unfold aiterload TL.iterload
  by_cases hdict : x.erase.isDict = true
  · rw [if_pos hdict, if_pos hdict]; exact ASim.throw hs _
  · rw [if_neg hdict, if_neg hdict]
    cases t with
    | coll k1 et =>
      dsimp only
      refine ASim.bind (ASim.lift hs (sat_resolve _ _)) (fun σ1 h h' hk hq => ?_)
      obtain ⟨rfl, hp⟩ := hq
      have hp := hp h rfl
      rw [apyIter_erase]
      cases hit : apyIter x with
      | none => exact ASim.throw hk.good _
      | some xs =>
        dsimp only [Option.map_some]
        refine ASim.bindPure (ASim.new hk.good) (fun σ2 a hk2 _ hn => ?_)
        obtain ⟨rfl, hn⟩ := hn
        refine ASim.bind (ASim.iterElems hsc hrec k (hsc.closed.coll _ _ hg) hp x.erase _ (Nat.le_trans hb hk.next) xs 0 [] σ2 (σ1.next + 1) hk2.good
          (by have := hk.next; have := hk2.next; omega) (by omega) (hx.iter hit) Own.nil) (fun σ3 ys vs hk3 hys => ?_)
        obtain ⟨rfl, hown⟩ := hys
        refine ASim.pure hk3.good ⟨rfl, ?_⟩
        exact (hown.new (by have := hk3.next; omega)).mono hk.next (Nat.le_refl _)
    | _ => exact ASim.throw hs _

omit hsc hrec in
theorem sat_tupHandler (u : Ty) : Sat W C Bd (tupHandler W C u) (fun o => ∀ h, o = .ok h → pick W C u = .ok h) := by
  apply Sat.of_post
  intro s hs
  refine (tupHandler_spec (C := C) hs.coh).mono ?_ ?_
  · rintro h s' ⟨rfl, hp⟩; exact ⟨⟨Ext.refl _, rfl⟩, fun h' e => by cases e; exact hp⟩
  · rintro e s' ⟨rfl, c, hp, rfl⟩; exact ⟨⟨Ext.refl _, rfl⟩, fun h' e => by cases e⟩

theorem ASim.tupElems (v : Val) (t : Ty) {a : Nat} (ha : b ≤ a) (xs : List AVal) : ∀ (us : List Ty) (i : Nat) (σ : AMem), (∀ u ∈ us, G u) → Good W C Bd σ.ls →
    b ≤ σ.next → (∀ x ∈ xs, FineParts F S x) →
    ASim W C Bd b (fun k' ys vs => AVal.eraseL ys = vs ∧ Own F S σ.next k' (AVal.addrsL ys)) (atupElems W C rec v t a xs us i)
      (tupElems W C rec' v t (AVal.eraseL xs) us i) σ := by
  induction xs with
  | nil => intro us i σ _ hs _ _; cases us <;> exact ASim.pure hs ⟨rfl, Own.nil⟩
  | cons x xs ih =>
    intro us i σ hg hs hb hx
    cases us with
    | nil => exact ASim.pure hs ⟨rfl, Own.nil⟩
    | cons u us =>
      simp only [atupElems, AVal.eraseL, TL.tupElems]
      refine ASim.bind (Q := ValOwn F S σ.next) (ASim.rescue ?_ (fun σ1 e hk => ASim.throw hk.good _)) (fun σ1 y r hk hy => ?_)
      · refine ASim.bind (ASim.lift hs (sat_tupHandler u)) (fun σ1 h h' hk hq => ?_)
        obtain ⟨rfl, hp⟩ := hq
        have hp := hp h rfl
        by_cases hbas : (C.isBasic u && typeOf x.erase == u) = true
        · rw [if_pos hbas, if_pos hbas]
          have hb' : C.isBasic u = true ∧ typeOf x.erase = u := by simpa [ty_beq] using hbas
          exact ASim.pure hk.good (ValOwn.pass (hx x (by simp)) (fun _ => addrs_basic (C := C) (by rw [hb'.2]; exact hb'.1)))
        · rw [if_neg hbas, if_neg hbas]
          exact (hrec h x u σ1 (hg u (by simp)) (pick_installed hp) hk.good (Nat.le_trans hb hk.next) (hx x (by simp)) (fun _ => .inr hp)).mono
            (fun k' y v h1 hv => ⟨hv.1, hv.2.mono hk.next (Nat.le_refl _)⟩)
      · obtain ⟨rfl, hown⟩ := hy
        refine ASim.bindPure (ASim.write hk.good ha) (fun σ2 _ hk2 _ hn => ?_)
        refine ASim.bind (ih us (i + 1) σ2 (fun w hw => hg w (by simp [hw])) hk2.good (by have := hk.next; have := hk2.next; omega) (fun z hz => hx z (by simp [hz])))
          (fun σ3 ys vs hk3 hys => ?_)
        obtain ⟨rfl, hown2⟩ := hys
        refine ASim.pure hk3.good ⟨rfl, ?_⟩
        rw [hn] at hown2
        simp only [AVal.addrsL]
        exact hown.append hown2 hk.next (by have := hk3.next; omega)

theorem ASim.tupleload (x : AVal) (t : Ty) (hg : G t) (σ : AMem) (hs : Good W C Bd σ.ls) (hb : b ≤ σ.next) (hx : FineParts F S x) :
    ASim W C Bd b (ValOwn F S σ.next) (atupleload W C rec x t) (tupleload W C rec' x.erase t) σ := by
  unfold atupleload TL.tupleload
  cases t with
  | coll k et =>
    cases k with
    | tuple => exact ASim.iterload hsc hrec .tuple x _ hg σ hs hb hx
    | _ => exact ASim.throw hs _
  | tuple ts =>
    dsimp only
    by_cases hdict : x.erase.isDict = true
    · rw [if_pos hdict, if_pos hdict]; exact ASim.throw hs _
    · rw [if_neg hdict, if_neg hdict, apyIter_erase]
      cases hit : apyIter x with
      | none => exact ASim.throw hs _
      | some xs =>
        dsimp only [Option.map_some]
        have hlen : (AVal.eraseL xs).length = xs.length := by rw [AVal.eraseL_eq, List.length_map]
        rw [hlen]
        split
        · exact ASim.throw hs _
        · split
          · exact ASim.throw hs _
          · refine ASim.bindPure (ASim.new hs) (fun σ2 a hk2 _ hn => ?_)
            obtain ⟨rfl, hn⟩ := hn
            refine ASim.bind (ASim.tupElems hsc hrec x.erase _ hb xs ts 0 σ2 (hsc.closed.tuple ts hg) hk2.good (by omega) (hx.iter hit)) (fun σ3 ys vs hk3 hys => ?_)
            obtain ⟨rfl, hown⟩ := hys
            rw [hn] at hown
            exact ASim.pure hk3.good ⟨rfl, hown.new (by have := hk3.next; omega)⟩
  | _ => exact ASim.throw hs _

end handlers

end TL
