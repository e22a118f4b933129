import Verif.Lemmas.LoadObjectsStep
/-!
# The loader with object identity: classes, unions, Enums; the whole loader
-/

namespace TL

set_option linter.unusedSectionVars false

section handlers
variable {W : World} {C : Config} {G : Ty → Prop} {Bd : String → Ty → Prop} {O : LObjects W} {F : Prop} {S : Nat → Prop} {b : Nat}
variable (hsc : Scene W C G Bd O F S) {rec : ARec} {rec' : Rec}
  (hrec : ∀ h x t σ, G t → Installed C h → Good W C Bd σ.ls → b ≤ σ.next → FineParts F S x → (F → x.addrs = [] ∨ pick W C t = .ok h) →
    ASim W C Bd b (ValOwn F S σ.next) (rec h x t) (rec' h x.erase t) σ)
include hsc hrec

theorem ASim.objFields {c : Nat} {info : ObjInfo} (hi : InfoFor W C c info) (hg : ∀ f ∈ (W.cls c).fields, ∀ t, FieldTy (W.cls c).kind f t → G t)
    (v : Val) (t : Ty) {a : Nat} (ha : b ≤ a) (kvs : List (AVal × AVal)) :
    ∀ (acc : List (String × AVal)) (σ : AMem) (k0 : Nat), Good W C Bd σ.ls → b ≤ σ.next → k0 ≤ σ.next → FinePartsKV F S kvs → Own F S k0 σ.next (AVal.addrsN acc) →
    ASim W C Bd b (fun k' ys vs => AVal.eraseN ys = vs ∧ Own F S k0 k' (AVal.addrsN ys)) (aobjFields W C rec info v t a kvs acc)
      (objFields W C rec' info v t (AVal.eraseKV kvs) (AVal.eraseN acc)) σ := by
  induction kvs with
  | nil => intro acc σ k0 hs _ _ _ hacc; exact ASim.pure hs ⟨rfl, hacc⟩
  | cons p kvs ih =>
    obtain ⟨k, x⟩ := p
    intro acc σ k0 hs hb hk0 hfine hacc
    obtain ⟨_, _, hfx⟩ := hfine (k, x) (by simp)
    have hrest : FinePartsKV F S kvs := fun q hq => hfine q (by simp [hq])
    have skip := ih acc σ k0 hs hb hk0 hrest hacc
    simp only [aobjFields, AVal.eraseKV, TL.objFields]
    cases hk : k.erase with
    | str n =>
      dsimp only
      by_cases h1 : info.fields.contains n = true
      · rw [if_pos h1, if_pos h1]
        cases h2 : aget info.hints n with
        | none => exact ASim.throw hs _
        | some ft =>
          dsimp only
          obtain ⟨f, hf, _, hty⟩ := hi.hints n ft h2
          refine ASim.bind (ASim.lift hs (sat_resolve _ _)) (fun σ1 h h' hk1 hq => ?_)
          obtain ⟨rfl, hp⟩ := hq
          have hp := hp h rfl
          have hn1 := hk1.next
          refine ASim.bind (ASim.rescue (hrec h x ft σ1 (hg f hf ft hty) (pick_installed hp) hk1.good (by omega) hfx (fun _ => .inr hp)) (fun σ2 e hk2 => ?_))
            (fun σ2 y r hk2 hy => ?_)
          · split
            · exact ASim.throw hk2.good _
            · exact ASim.throw hk2.good _
          · obtain ⟨rfl, hown⟩ := hy
            have hn2 := hk2.next
            refine ASim.bindPure (ASim.write hk2.good ha) (fun σ3 _ hk3 _ hn => ?_)
            rw [← AVal.eraseN_aset]
            refine ih _ σ3 k0 hk3.good (by omega) (by omega) hrest ?_
            rw [hn]
            exact ((hacc.mono (Nat.le_refl _) hn1).append hown (by omega) hn2).perm (AVal.addrs_aset _ _ _)
      · rw [if_neg h1, if_neg h1]; exact skip
    | _ => exact skip

omit hsc hrec in
theorem ASim.objItems (x : AVal) (σ : AMem) (hs : Good W C Bd σ.ls) (hb : b ≤ σ.next) (hx : ItemsFine F S x) :
    ASim W C Bd b (fun _ r v => (r = none ∧ v = none) ∨ ∃ y kvs, r = some (y, kvs) ∧ v = some (y.erase, AVal.eraseKV kvs) ∧ FinePartsKV F S kvs) (aobjItems C x)
      (Pure.pure (objItems C x.erase)) σ := by
  cases x with
  | atom v h =>
    have : TL.objItems C v = none := by cases v <;> first | rfl | cases h
    show ASim _ _ _ _ _ (Pure.pure _) (Pure.pure (TL.objItems C v)) _
    rw [this]
    exact ASim.pure hs (.inl ⟨rfl, rfl⟩)
  | ns a fs =>
    unfold aobjItems TL.objItems
    simp only [AVal.erase]
    by_cases h : C.dictequivalence = true
    · rw [if_pos h, if_pos h]
      refine ASim.bindPure (ASim.new hs) (fun σ1 a' hk _ hn => ?_)
      obtain ⟨rfl, hn⟩ := hn
      refine ASim.bindPure (ASim.write hk.good hb) (fun σ2 _ hk2 _ _ => ?_)
      exact ASim.pure hk2.good (.inr ⟨_, _, rfl, by simp only [AVal.erase, AVal.eraseKV_strs], hx⟩)
    · rw [if_neg h, if_neg h]
      exact ASim.pure hs (.inl ⟨rfl, rfl⟩)
  | dict a kvs => exact ASim.pure hs (.inr ⟨_, _, rfl, rfl, hx⟩)
  | seq => exact ASim.pure hs (.inl ⟨rfl, rfl⟩)
  | nt => exact ASim.pure hs (.inl ⟨rfl, rfl⟩)
  | inst => exact ASim.pure hs (.inl ⟨rfl, rfl⟩)

theorem ASim.objloader {c : Nat} {info : ObjInfo} (hi : InfoFor W C c info) (hg : G (.obj c)) (x : AVal) (σ : AMem) (hs : Good W C Bd σ.ls) (hb : b ≤ σ.next)
    (hx : ItemsFine F S x) : ASim W C Bd b (ValOwn F S σ.next) (aobjloader W C O rec info x c) (objloader W C rec' info x.erase c) σ := by
  unfold aobjloader TL.objloader
  refine ASim.bindPure (ASim.objItems x σ hs hb hx) (fun σ1 r hk1 _ hr => ?_)
  rcases hr with ⟨rfl, hv⟩ | ⟨y, kvs, rfl, hv, hkvs⟩
  · rw [hv]; exact ASim.throw hk1.good _
  · rw [hv]
    dsimp only
    split
    · exact ASim.throw hk1.good _
    · split
      · split
        · exact ASim.throw hk1.good _
        · exact ASim.throw hk1.good _
      · have hn1 := hk1.next
        refine ASim.bindPure (ASim.new hk1.good) (fun σ2 a hk2 _ hn => ?_)
        obtain ⟨rfl, hn⟩ := hn
        refine ASim.bind (ASim.objFields hsc hrec hi (hsc.closed.field c hg) y.erase (.obj c) (Nat.le_trans hb hn1) kvs [] σ2 σ2.next hk2.good (by omega) (Nat.le_refl _) hkvs Own.nil)
          (fun σ3 ps vs hk3 hps => ?_)
        obtain ⟨rfl, hown⟩ := hps
        have hn3 := hk3.next
        refine ASim.bindPure (ASim.construct hsc hg ps σ2.next σ3 hk3.good (by omega) hn3 hown) (fun σ4 r hk4 _ hr => ?_)
        cases r with
        | ok y =>
          cases hm : TL.construct W c (AVal.eraseN ps) with
          | ok v => rw [hm] at hr; exact ASim.pure hk4.good ⟨hr.1, hr.2.mono (by omega) (Nat.le_refl _)⟩
          | error e => rw [hm] at hr; exact hr.elim
        | error e =>
          cases hm : TL.construct W c (AVal.eraseN ps) with
          | ok v => rw [hm] at hr; exact hr.elim
          | error e' =>
            rw [hm] at hr
            have hr : e = e' := hr
            subst hr
            dsimp only
            split
            · exact ASim.throw hk4.good _
            · split
              · exact ASim.throw hk4.good _
              · exact ASim.throw hk4.good _

theorem ASim.namedtupleload (x : AVal) (t : Ty) (hg : G t) (σ : AMem) (hs : Good W C Bd σ.ls) (hb : b ≤ σ.next) (hx : FineParts F S x) :
    ASim W C Bd b (ValOwn F S σ.next) (anamedtupleload W C O rec x t) (namedtupleload W C rec' x.erase t) σ := by
  unfold anamedtupleload TL.namedtupleload
  cases t with
  | obj c =>
    dsimp only
    by_cases hk : (W.cls c).kind = .namedtuple
    · rw [if_pos hk, if_pos hk]; exact ASim.objloader hsc hrec (infoFor_namedtuple hk) hg x σ hs hb hx.items
    · rw [if_neg hk, if_neg hk]; exact ASim.throw hs _
  | _ => exact ASim.throw hs _

omit hsc hrec in
theorem sat_dataclassCached (c : Nat) : Sat W C Bd (dataclassCached W C c) (fun o => o = .ok (dataclassInfo C (W.cls c))) := by
  apply Sat.of_post
  intro s hs
  unfold dataclassCached
  rw [post_bind, post_get]
  cases ho : aget s.objc c with
  | some i => exact ⟨⟨Ext.refl s, rfl⟩, by rw [hs.coh.objc c i ho]⟩
  | none => exact ⟨⟨Ext.objc ho, rfl⟩, rfl⟩

omit hsc hrec in
theorem sat_rewrite (c : Nat) : Sat W C Bd (M.modify (rewriteAnnotations W c) : L Unit) (fun _ => True) := by
  apply Sat.of_post
  intro s hs
  rw [post_modify]
  unfold rewriteAnnotations
  split
  · exact ⟨⟨Ext.rew, rfl⟩, trivial⟩
  · exact ⟨⟨Ext.refl s, rfl⟩, trivial⟩

theorem ASim.mangled {c : Nat} {info : ObjInfo} (hi : InfoFor W C c info) (hg : G (.obj c)) (x : AVal) (σ : AMem) (hs : Good W C Bd σ.ls) (hb : b ≤ σ.next) (hx : FineParts F S x) :
    ASim W C Bd b (ValOwn F S σ.next) (amangleOrRaise C info.transforms x (.obj c) >>= fun x' => aobjloader W C O rec info x' c)
      (TL.mangleOrRaise C info.transforms x.erase (.obj c) >>= fun v' => TL.objloader W C rec' info v' c) σ := by
  refine ASim.bind (ASim.mangleOrRaise _ x _ σ hs hb hx) (fun σ1 y v hk hy => ?_)
  obtain ⟨rfl, hy⟩ := hy
  exact (ASim.objloader hsc hrec hi hg y σ1 hk.good (Nat.le_trans hb hk.next) hy).mono (fun k' y v h1 hv => ⟨hv.1, hv.2.mono hk.next (Nat.le_refl _)⟩)

theorem ASim.dataclassload (x : AVal) (t : Ty) (hg : G t) (σ : AMem) (hs : Good W C Bd σ.ls) (hb : b ≤ σ.next) (hx : FineParts F S x) :
    ASim W C Bd b (ValOwn F S σ.next) (adataclassload W C O rec x t) (dataclassload W C rec' x.erase t) σ := by
  unfold adataclassload TL.dataclassload
  cases t with
  | obj c =>
    dsimp only
    by_cases hk : (W.cls c).kind = .dataclass
    · rw [if_pos hk, if_pos hk]
      refine ASim.bind (ASim.lift hs (sat_dataclassCached c)) (fun σ1 i i' hk1 hq => ?_)
      obtain ⟨rfl, hi⟩ := hq
      cases hi
      exact (ASim.mangled hsc hrec (infoFor_dataclass hk) hg x σ1 hk1.good (Nat.le_trans hb hk1.next) hx).mono
        (fun k' y v h1 hv => ⟨hv.1, hv.2.mono hk1.next (Nat.le_refl _)⟩)
    · rw [if_neg hk, if_neg hk]; exact ASim.throw hs _
  | _ => exact ASim.throw hs _

theorem ASim.attrload (x : AVal) (t : Ty) (hg : G t) (σ : AMem) (hs : Good W C Bd σ.ls) (hb : b ≤ σ.next) (hx : FineParts F S x) :
    ASim W C Bd b (ValOwn F S σ.next) (aattrload W C O rec x t) (attrload W C rec' x.erase t) σ := by
  unfold aattrload TL.attrload
  cases t with
  | obj c =>
    dsimp only
    by_cases hk : (W.cls c).kind = .attrs
    · rw [if_pos hk, if_pos hk]
      cases hh : attrHints (W.cls c).fields with
      | error e => exact ASim.throw hs _
      | ok hints => exact ASim.mangled hsc hrec (infoFor_attrs hk hh) hg x σ hs hb hx
    · rw [if_neg hk, if_neg hk]; exact ASim.throw hs _
  | _ => exact ASim.throw hs _

theorem ASim.typeddictload (x : AVal) (t : Ty) (hg : G t) (σ : AMem) (hs : Good W C Bd σ.ls) (hb : b ≤ σ.next) (hx : FineParts F S x) :
    ASim W C Bd b (ValOwn F S σ.next) (atypeddictload W C O rec x t) (typeddictload W C rec' x.erase t) σ := by
  unfold atypeddictload TL.typeddictload
  cases t with
  | obj c =>
    dsimp only
    by_cases hk : (W.cls c).kind = .typeddict
    · rw [if_pos hk, if_pos hk]
      refine ASim.bind (ASim.lift hs sat_get) (fun σ1 s s' hk1 hq => ?_)
      obtain ⟨rfl, _⟩ := hq
      refine ASim.bind (ASim.lift hk1.good (sat_rewrite c)) (fun σ2 _ _ hk2 _ => ?_)
      have := hk1.next; have := hk2.next
      exact (ASim.objloader hsc hrec (infoFor_typeddict hk _) hg x σ2 hk2.good (by omega) hx.items).mono
        (fun k' y v h1 hv => ⟨hv.1, hv.2.mono (by omega) (Nat.le_refl _)⟩)
    · rw [if_neg hk, if_neg hk]; exact ASim.throw hs _
  | _ => exact ASim.throw hs _

/-! ### Unions and Enums -/

theorem ASim.unionTry (x : AVal) (t : Ty) (hx : FineParts F S x) (us : List Ty) : ∀ (c : Nat) (r : AVal) (es : List Exc) (σ : AMem) (k0 : Nat), (∀ u ∈ us, G u) →
    Good W C Bd σ.ls → b ≤ σ.next → k0 ≤ σ.next → Own F S k0 σ.next r.addrs →
    ASim W C Bd b (fun k' p q => p.1 = q.1 ∧ p.2.1.erase = q.2.1 ∧ p.2.2 = q.2.2 ∧ Own F S k0 k' p.2.1.addrs) (aunionTry W C rec x t us c r es)
      (unionTry W C rec' x.erase t us c r.erase es) σ := by
  induction us with
  | nil => intro c r es σ k0 _ hs _ _ hr; exact ASim.pure hs ⟨rfl, rfl, rfl, hr⟩
  | cons u us ih =>
    intro c r es σ k0 hg hs hb h0 hr
    unfold aunionTry TL.unionTry
    have hg' : ∀ u' ∈ us, G u' := fun u' hu' => hg u' (by simp [hu'])
    refine ASim.handle (Q := ValOwn F S σ.next) ?_ (fun σ1 y v hk hy => ?_) (fun σ1 e hk => ?_)
    · refine ASim.bind (ASim.lift hs (sat_resolve _ _)) (fun σ1 h h' hk hq => ?_)
      obtain ⟨rfl, hp⟩ := hq
      have hp := hp h rfl
      exact (hrec h x u σ1 (hg u (by simp)) (pick_installed hp) hk.good (Nat.le_trans hb hk.next) hx (fun _ => .inr hp)).mono
        (fun k' y v h1 hv => ⟨hv.1, hv.2.mono hk.next (Nat.le_refl _)⟩)
    · obtain ⟨rfl, hown⟩ := hy
      have hn := hk.next
      by_cases h : C.uniondebugconflict = true
      · rw [if_pos h, if_pos h]; exact ih (c + 1) y es σ1 k0 hg' hk.good (by omega) (by omega) (hown.mono h0 (Nat.le_refl _))
      · rw [if_neg h, if_neg h]; exact ASim.pure hk.good ⟨rfl, rfl, rfl, hown.mono h0 (Nat.le_refl _)⟩
    · have hn := hk.next
      by_cases h : e.isTL = true
      · rw [if_pos h, if_pos h]; exact ih c r _ σ1 k0 hg' hk.good (by omega) (by omega) (hr.mono (Nat.le_refl _) hn)
      · rw [if_neg h, if_neg h]; exact ASim.throw hk.good _

theorem ASim.unionload (x : AVal) (t : Ty) (hg : G t) (σ : AMem) (hs : Good W C Bd σ.ls) (hb : b ≤ σ.next) (hx : FineParts F S x) :
    ASim W C Bd b (ValOwn F S σ.next) (aunionload W C rec x t) (unionload W C rec' x.erase t) σ := by
  unfold aunionload TL.unionload
  cases t with
  | union ts =>
    dsimp only
    by_cases hbas : (C.isBasic (typeOf x.erase) && ts.contains (typeOf x.erase)) = true
    · rw [if_pos hbas, if_pos hbas]
      exact ASim.pure hs (ValOwn.pass hx (fun _ => addrs_basic (C := C) (by simp only [Bool.and_eq_true] at hbas; exact hbas.1)))
    · rw [if_neg hbas, if_neg hbas]
      refine ASim.bind (ASim.lift hs (Sat.unionOrder _ _)) (fun σ1 order o' hk1 hq => ?_)
      obtain ⟨rfl, hord⟩ := hq
      have hgo : ∀ u ∈ order, G u := fun u hu => hsc.closed.union ts hg u (hord.perm.mem_iff.1 hu)
      have hn := hk1.next
      refine ASim.bind (ASim.unionTry hsc hrec x _ hx order 0 (.atom .none rfl) [] σ1 σ1.next hgo hk1.good (by omega) (Nat.le_refl _) Own.nil) (fun σ2 p q hk2 hpq => ?_)
      obtain ⟨c, r, es⟩ := p
      obtain ⟨c', r', es'⟩ := q
      obtain ⟨h1, h2, h3, h4⟩ := hpq
      dsimp only at h1 h2 h3 h4 ⊢
      subst h1; subst h2; subst h3
      split
      · exact ASim.pure hk2.good ⟨rfl, h4.mono hn (Nat.le_refl _)⟩
      · split
        · exact ASim.throw hk2.good _
        · exact ASim.throw hk2.good _
  | _ => exact ASim.throw hs _

omit hsc hrec in
theorem enumCall_atom {e : Nat} {v m : Val} (h : enumCall W e v = some m) : m.isAtom = true := by
  obtain ⟨p, _, rfl⟩ := enumCall_member h
  rfl

theorem ASim.enumHints (x : AVal) (e : Nat) (hx : FineParts F S x) (us : List Ty) : ∀ (es : List Exc) (σ : AMem), (∀ u ∈ us, G u) → Good W C Bd σ.ls → b ≤ σ.next →
    ASim W C Bd b (fun _ y v => y.erase = v ∧ y.addrs = []) (aenumHints W C rec x e us es) (enumHints W C rec' x.erase e us es) σ := by
  induction us with
  | nil => intro es σ _ hs _; exact ASim.throw hs _
  | cons u us ih =>
    intro es σ hg hs hb
    unfold aenumHints TL.enumHints
    refine ASim.rescue ?_ (fun σ1 ex hk => ih _ σ1 (fun u' hu' => hg u' (by simp [hu'])) hk.good (Nat.le_trans hb hk.next))
    refine ASim.bind (ASim.loadWith hsc hrec x (hg u (by simp)) _ σ hs hb hx) (fun σ1 y v hk hy => ?_)
    obtain ⟨rfl, _⟩ := hy
    cases hm : enumCall W e y.erase with
    | none => exact ASim.throw hk.good _
    | some m => exact ASim.pure hk.good ⟨AVal.ofAtom_erase (enumCall_atom hm), AVal.ofAtom_addrs _⟩

theorem ASim.enumload (x : AVal) (t : Ty) (hg : G t) (σ : AMem) (hs : Good W C Bd σ.ls) (hb : b ≤ σ.next) (hx : FineParts F S x) :
    ASim W C Bd b (ValOwn F S σ.next) (aenumload W C rec x t) (enumload W C rec' x.erase t) σ := by
  have fin : ∀ {k k' : Nat} {y : AVal} {v : Val}, (y.erase = v ∧ y.addrs = []) → ValOwn F S k k' y v := fun h => ⟨h.1, by rw [h.2]; exact Own.nil⟩
  unfold aenumload TL.enumload
  cases t with
  | enum e =>
    dsimp only
    cases hm : enumCall W e x.erase with
    | some m => exact ASim.pure hs (fin ⟨AVal.ofAtom_erase (enumCall_atom hm), AVal.ofAtom_addrs _⟩)
    | none => exact (ASim.enumHints hsc hrec x e hx _ [] σ (hsc.closed.enum e hg) hs hb).mono (fun _ _ _ _ h => fin h)
  | _ => exact ASim.throw hs _

/-! ### The whole loader -/

omit hsc hrec in
theorem picked_any {t : Ty} {h : Handler} (hp : Picked W C t h) (hh : h = .anyload) : t = .any := by
  cases hp with
  | any => rfl
  | coll => rename_i k _; cases k <;> cases hh
  | obj => rename_i c; cases hk : (W.cls c).kind <;> rw [hk] at hh <;> cases hh
  | bare hor => subst hh; simp at hor
  | _ => cases hh

theorem ASim.step (h : Handler) (x : AVal) (t : Ty) (σ : AMem) (hg : G t) (hin : Installed C h) (hs : Good W C Bd σ.ls) (hb : b ≤ σ.next) (hx : FineParts F S x)
    (hp : F → x.addrs = [] ∨ pick W C t = .ok h) : ASim W C Bd b (ValOwn F S σ.next) (astep W C O rec h x t) (step W C rec' h x.erase t) σ := by
  have leaf : ∀ (m : L Val), m = TL.step W C rec' h x.erase t → h.isLeaf = true → ASim W C Bd b (ValOwn F S σ.next) (aleaf m) m σ := by
    intro m hm hl
    obtain ⟨o, ho⟩ := leaf_lift (W := W) (C := C) hl x.erase t
    exact ASim.leaf (hm.trans (ho rec')) σ hs
  cases h with
  | noneload => exact leaf _ rfl rfl
  | datetimeload => exact leaf _ rfl rfl
  | patternload => exact leaf _ rfl rfl
  | timedeltaload => exact leaf _ rfl rfl
  | unionload => exact ASim.unionload hsc hrec x t hg σ hs hb hx
  | basicload => exact ASim.basicload hsc x t σ hs hx hp
  | enumload => exact ASim.enumload hsc hrec x t hg σ hs hb hx
  | tupleload => exact ASim.tupleload hsc hrec x t hg σ hs hb hx
  | listload => exact ASim.iterload hsc hrec .list x t hg σ hs hb hx
  | setload => exact ASim.iterload hsc hrec .set x t hg σ hs hb hx
  | frozensetload => exact ASim.iterload hsc hrec .frozenset x t hg σ hs hb hx
  | dictload => exact ASim.dictload hsc hrec x t hg σ hs hb hx
  | namedtupleload => exact ASim.namedtupleload hsc hrec x t hg σ hs hb hx
  | dataclassload => exact ASim.dataclassload hsc hrec x t hg σ hs hb hx
  | attrload => exact ASim.attrload hsc hrec x t hg σ hs hb hx
  | typeddictload => exact ASim.typeddictload hsc hrec x t hg σ hs hb hx
  | forwardrefload => exact ASim.forwardrefload hsc hrec x t σ hs hb hx
  | literalload => exact ASim.literalload hsc x t hg σ hs hx
  | strconstructload => exact ASim.strconstructload hsc x t σ hs hx hp
  | newtypeload => exact ASim.newtypeload hsc hrec x t hg σ hs hb hx
  | anyload =>
    refine ASim.pure hs (ValOwn.pass hx (fun hF => ?_))
    rcases hp hF with h | h
    · exact h
    · exact absurd hg (by
        have := picked_any (picked hsc.dflt h) rfl
        subst this
        exact hsc.noAny hF)
  | custom i => exact absurd hin (not_installed hsc.dflt i)

end handlers

/-- The loader with object identity does what the loader does; and everything it returns is new, part of the data, or a shared default. -/
theorem ASim.run {W : World} {C : Config} {G : Ty → Prop} {Bd : String → Ty → Prop} {O : LObjects W} {F : Prop} {S : Nat → Prop} {b : Nat} (hsc : Scene W C G Bd O F S) (n : Nat) :
    ∀ h x t σ, G t → Installed C h → Good W C Bd σ.ls → b ≤ σ.next → FineParts F S x → (F → x.addrs = [] ∨ pick W C t = .ok h) →
    ASim W C Bd b (ValOwn F S σ.next) (arun W C O n h x t) (run W C n h x.erase t) σ := by
  induction n with
  | zero => intros; trivial
  | succ n ih => exact fun h x t σ hg hin hs hb hx hp => ASim.step hsc ih h x t σ hg hin hs hb hx hp

end TL
