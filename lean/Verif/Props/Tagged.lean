import Verif.Props.Discriminator
import Verif.Props.Keys
import Verif.Props.Simple
/-!
# C55, C56: tagged unions and `failonextra` make unions unambiguous

The documentation (docs/supported_types.md, docs/performance.md) recommends to give the classes of a union a Literal field with
different values, or to use `failonextra`, so that conflicts among the members are impossible.
-/

namespace TL

variable {W : World} {C : Config}

/-! ## Specification -/

/-- The class `u` has a mandatory field that the data gives under the key `k`, annotated `Literal[vs]` (and without converter). -/
def TagField (W : World) (C : Config) (k : String) (u : Ty) (vs : List Val) : Prop :=
  ∃ c f, u = .obj c ∧ WFNames C (W.cls c).kind (W.cls c).fields ∧ f ∈ (W.cls c).fields ∧ Required (W.cls c).kind f ∧
    extName C (W.cls c).kind f = k ∧ f.ty = .lit vs ∧ f.conv = none

/-- All the members of the union are classes with a mandatory Literal field under the key `k`, and no two members share a literal. -/
structure TaggedUnion (W : World) (C : Config) (k : String) (ts : List Ty) : Prop where
  tag : ∀ u ∈ ts, ∃ vs, TagField W C k u vs
  disjoint : ∀ u ∈ ts, ∀ w ∈ ts, u ≠ w → ∀ vs ws, TagField W C k u vs → TagField W C k w ws → ∀ a ∈ vs, ∀ b ∈ ws, pyEq a b = false

/-- The data has under `k` a value equal to one of the literals of `u`. -/
def TagMatches (W : World) (C : Config) (k : String) (kvs : List (Val × Val)) (u : Ty) : Prop :=
  ∃ vs x l, TagField W C k u vs ∧ (.str k, x) ∈ kvs ∧ l ∈ vs ∧ pyEq l x = true

/-! ## Lemmas -/

theorem Num.eq_common {i j : Int} {y : Num} (h : Num.eq (.int i) y = true) (h' : Num.eq (.int j) y = true) : i = j := by
  cases y with
  | int a => simp [Num.eq] at h h'; rw [h, h']
  | flt f =>
    simp only [Num.eq] at h h'
    have := (PF.eq_iff h).trans (PF.eq_iff h').symm
    simp only [PF.ofInt, PF.fin.injEq] at this
    have hf : fscale ≠ 0 := by unfold fscale; exact Int.ne_of_gt (Int.pow_pos (by decide))
    exact Int.eq_of_mul_eq_mul_right hf this

theorem pyEq_of_litInt {a x : Val} {i : Int} (h : litInt a = some i) :
    pyEq a x = true → ∃ y, numKey x = some y ∧ Num.eq (.int i) y = true := by
  cases a with
  | bool b =>
    simp only [litInt, Option.some.injEq] at h
    intro hp
    simp only [pyEq, h] at hp
    cases hx : numKey x with
    | none => rw [hx] at hp; cases hp
    | some y => rw [hx] at hp; exact ⟨y, rfl, hp⟩
  | int j =>
    simp only [litInt, Option.some.injEq] at h
    intro hp
    simp only [pyEq, h] at hp
    cases hx : numKey x with
    | none => rw [hx] at hp; cases hp
    | some y => rw [hx] at hp; exact ⟨y, rfl, hp⟩
  | _ => simp [litInt] at h

theorem pyEq_of_litInt_none {a x : Val} (ha : LitVal a = true) (h : litInt a = none) (hp : pyEq a x = true) : x = a := by
  cases a <;> simp [LitVal, litInt] at ha h <;> cases x <;> simp_all [pyEq]

/-- Two literals equal to the same value are equal. -/
theorem pyEq_lit_common {a b x : Val} (ha : LitVal a = true) (hb : LitVal b = true) (h : pyEq a x = true)
    (h' : pyEq b x = true) : pyEq a b = true := by
  rw [pyEq_lit ha hb]
  cases hi : litInt a with
  | some i =>
    obtain ⟨y, h1, h2⟩ := pyEq_of_litInt hi h
    cases hj : litInt b with
    | some j =>
      obtain ⟨y', h3, h4⟩ := pyEq_of_litInt hj h'
      rw [h1] at h3; cases h3
      rw [Num.eq_common h2 h4]; simp
    | none =>
      have := pyEq_of_litInt_none hb hj h'
      subst this
      exfalso
      revert h1 hj hb
      clear h' h hi ha h2
      intro hb h1 hj
      cases x <;> simp [LitVal, litInt, numKey] at hb h1 hj
  | none =>
    have := pyEq_of_litInt_none ha hi h
    subst this
    cases hj : litInt b with
    | some j =>
      obtain ⟨y, h1, h2⟩ := pyEq_of_litInt hj h'
      exfalso
      revert h1 hi ha
      clear h' h hj hb h2
      intro ha h1 hj
      cases x <;> simp [LitVal, litInt, numKey] at ha h1 hj
    | none =>
      have := pyEq_of_litInt_none hb hj h'
      exact ⟨rfl, fun _ => this⟩

/-- The data of a field is accepted by the type of the field. -/
theorem field_accepts (hd : C.Default) {s s' : LState} (hc : Coh W C s) {v r : Val} {c : Nat} {kvs : List (Val × Val)}
    (hw : WFNames C (W.cls c).kind (W.cls c).fields) (hdata : DictData C v kvs) (hn : (strKeys kvs).Nodup) {f : Field}
    (hf : f ∈ (W.cls c).fields) {x : Val} (hx : (.str (extName C (W.cls c).kind f), x) ∈ kvs)
    (h : Loads W C s v (.obj c) r s') : ∃ t y, FieldTy (W.cls c).kind f t ∧ AcceptsAs W C s x t y := by
  obtain ⟨info, kvs1, kvs', params, hi, hm, _, _, hp, _⟩ := loads_obj hd hc h
  have := hm.1.unique hdata; subst this
  obtain ⟨h1, h2⟩ := params_spec hi hw hm hn hp hf
  cases ha : aget params f.name with
  | none => exact absurd (mem_strKeys.2 ⟨x, hx⟩) (h2 ha)
  | some y =>
    obtain ⟨x', t, h3, h4, h5⟩ := h1 y ha
    have e1 := dget_of_mem_str hn h3
    have e2 := dget_of_mem_str hn hx
    rw [e1] at e2; cases e2
    exact ⟨t, y, h4, h5⟩

theorem FieldTy.lit {k : ObjKind} {f : Field} {t : Ty} (hcv : f.conv = none) (h : FieldTy k f t) : t = f.ty := by
  cases h with
  | declared _ => rfl
  | converter cv _ h => rw [hcv] at h; cases h
  | untyped cv _ h => rw [hcv] at h; cases h
  | manyHints cv _ h => rw [hcv] at h; cases h

theorem literal_loads (hd : C.Default) {s s' : LState} (hc : Coh W C s) {v r : Val} {vs : List Val} (h : Loads W C s v (.lit vs) r s') :
    ∃ l ∈ vs, pyEq l v = true := by
  have := (leaf_loads hc (pick_lit hd vs) (fun rec s => step_lit rec vs v s) r).1 ⟨s', h⟩
  split at this
  · rename_i hp; simpa [pyIn] using hp
  · cases this

/-- A class accepts only data tagged with one of its literals. -/
theorem accepts_tag (hd : C.Default) {s : LState} (hc : Coh W C s) {v r : Val} {kvs : List (Val × Val)} {k : String} {u : Ty} {vs : List Val}
    (ht : TagField W C k u vs) (hdata : DictData C v kvs) (hn : (strKeys kvs).Nodup) (h : AcceptsAs W C s v u r) :
    TagMatches W C k kvs u := by
  obtain ⟨s1, s2, he, hl⟩ := h
  have hc1 := hc.ext he
  have ht' := ht
  obtain ⟨c, f, rfl, hw, hf, hr, rfl, hty, hcv⟩ := ht
  by_cases hk : extName C (W.cls c).kind f ∈ strKeys kvs
  · obtain ⟨x, hx⟩ := mem_strKeys.1 hk
    obtain ⟨t, y, h1, s3, s4, he3, hl3⟩ := field_accepts hd hc1 hw hdata hn hf hx hl
    have := h1.lit hcv; subst this
    rw [hty] at hl3
    obtain ⟨l, h4, h5⟩ := literal_loads hd (hc1.ext he3) hl3
    exact ⟨vs, x, l, ht', hx, h4, h5⟩
  · exact absurd hl (missing_refused hd hc1 hw hdata hn hf hr hk r s2)

theorem not_exactBasic {v : Val} {kvs : List (Val × Val)} (hdata : DictData C v kvs) (ts : List Ty) : ¬ ExactBasic C v ts := by
  rintro ⟨h, _⟩
  rcases hdata with rfl | ⟨fs, rfl, _⟩ <;> simp [typeOf, Config.isBasic] at h

theorem TaggedUnion.unique {k : String} {ts : List Ty} (ht : TaggedUnion W C k ts) (hll : W.LegalLiterals) {kvs : List (Val × Val)}
    (hn : (strKeys kvs).Nodup) {u w : Ty} (hu : u ∈ ts) (hw : w ∈ ts) (h1 : TagMatches W C k kvs u) (h2 : TagMatches W C k kvs w) : u = w := by
  by_cases he : u = w
  · exact he
  · obtain ⟨vs, x, a, g1, g2, g3, g4⟩ := h1
    obtain ⟨ws, y, b, k1, k2, k3, k4⟩ := h2
    have e1 := dget_of_mem_str hn g2
    have e2 := dget_of_mem_str hn k2
    rw [e1] at e2; cases e2
    have := ht.disjoint u hu w hw he vs ws g1 k1 a g3 b k3
    obtain ⟨c, f, _, _, hf, _, _, hty, _⟩ := g1
    obtain ⟨c', f', _, _, hf', _, _, hty', _⟩ := k1
    rw [pyEq_lit_common (hll c f hf vs hty a g3) (hll c' f' hf' ws hty' b k3) g4 k4] at this
    cases this

/-- At most one of distinct members accepts: at most one success. -/
theorem oks_le_one {s : LState} {v : Val} {t : Ty} {us : List Ty} {os : List (Except Exc Val)} (h : Zip2 (Outcome W C s v t) us os)
    (hnd : us.Nodup) (hone : ∀ u ∈ us, ∀ w ∈ us, ∀ r r', AcceptsAs W C s v u r → AcceptsAs W C s v w r' → u = w) :
    (oks os).length ≤ 1 := by
  induction h with
  | nil => simp
  | cons ho htail ih =>
    rename_i u o us os
    rw [List.nodup_cons] at hnd
    cases o with
    | error x => simpa using ih hnd.2 (fun a ha b hb => hone a (by simp [ha]) b (by simp [hb]))
    | ok x =>
      cases hk : oks os with
      | nil => simp [hk]
      | cons y ys =>
        exfalso
        have : ∀ {us : List Ty} {os : List (Except Exc Val)}, Zip2 (Outcome W C s v t) us os → oks os ≠ [] → ∃ w ∈ us, ∃ r, AcceptsAs W C s v w r := by
          intro us os hz
          induction hz with
          | nil => intro h; exact absurd rfl h
          | cons ho _ ih =>
            rename_i u o us os _
            cases o with
            | ok z => intro _; exact ⟨u, by simp, z, ho⟩
            | error z => intro h; obtain ⟨w, hw, r, ha⟩ := ih (by simpa using h); exact ⟨w, by simp [hw], r, ha⟩
        obtain ⟨w, hw, r, ha⟩ := this htail (by rw [hk]; simp)
        have := hone u (by simp) w (by simp [hw]) x r ho ha
        subst this
        exact hnd.1 hw

/-! ## C55 -/

/-- **C55** What a tagged union returns was produced by the member whose literal the data has under the tag, and no other member
accepts the data at any moment of the load. -/
theorem C55_tag_decides (hd : C.Default) (hll : W.LegalLiterals) {s s' : LState} (hs : Reachable W C s) {k : String} {ts : List Ty}
    (ht : TaggedUnion W C k ts) {v r : Val} {kvs : List (Val × Val)} (hdata : DictData C v kvs) (hn : (strKeys kvs).Nodup)
    (h : Loads W C s v (.union ts) r s') :
    ∃ p ∈ ts, TagMatches W C k kvs p ∧ AcceptsAs W C s v p r ∧ ∀ w ∈ ts, w ≠ p → ∀ r', ¬ AcceptsAs W C s v w r' := by
  rcases C09_union_sound hd hs h with ⟨hx, _⟩ | ⟨p, hp, ha⟩
  · exact absurd hx (not_exactBasic hdata ts)
  · obtain ⟨vs, hv⟩ := ht.tag p hp
    have hm := accepts_tag hd hs.coh hv hdata hn ha
    refine ⟨p, hp, hm, ha, fun w hw hne r' ha' => hne ?_⟩
    obtain ⟨ws, hv'⟩ := ht.tag w hw
    exact ht.unique hll hn hw hp (accepts_tag hd hs.coh hv' hdata hn ha') hm

/-- **C55** Data whose tag is missing, or is no literal of any member, is never accepted. -/
theorem C55_unknown_tag (hd : C.Default) {s : LState} (hs : Reachable W C s) {k : String} {ts : List Ty}
    (ht : TaggedUnion W C k ts) {v : Val} {kvs : List (Val × Val)} (hdata : DictData C v kvs) (hn : (strKeys kvs).Nodup)
    (hno : ∀ u ∈ ts, ∀ vs, TagField W C k u vs → ∀ x, (.str k, x) ∈ kvs → ∀ l ∈ vs, pyEq l x = false) :
    ∀ r s', ¬ Loads W C s v (.union ts) r s' := by
  intro r s' h
  rcases C09_union_sound hd hs h with ⟨hx, _⟩ | ⟨p, hp, ha⟩
  · exact not_exactBasic hdata ts hx
  · obtain ⟨vs, hv⟩ := ht.tag p hp
    obtain ⟨vs', x, l, h1, h2, h3, h4⟩ := accepts_tag hd hs.coh hv hdata hn ha
    rw [hno p hp vs' h1 x h2 l h3] at h4; cases h4

/-- **C55** A tagged union is never ambiguous: with `uniondebugconflict` or without, a TypedloadException for the union is a
TypedloadValueError (no member accepts), never the TypedloadTypeError of conflicting members. -/
theorem C55_never_ambiguous (hd : C.Default) (hll : W.LegalLiterals) {s s' : LState} (hs : Reachable W C s) {k : String} {ts : List Ty}
    (hnd : ts.Nodup) (ht : TaggedUnion W C k ts) {v : Val} {kvs : List (Val × Val)} (hdata : DictData C v kvs) (hn : (strKeys kvs).Nodup)
    {e : Exc} (h : Raises W C s v (.union ts) e s') (htl : e.isTL = true) : e.cls = .tlValue ∧ e.msg = .unionNone (.union ts) := by
  obtain ⟨e', rfl, hx, ⟨h1, _⟩ | ⟨order, c, r, es, ho, hl, hc⟩⟩ := union_raises hd hs.coh h
  · simp [loadExc, h1, ExcClass.isTL] at htl
  · obtain ⟨pre, post, os, rfl, hz, g1, -⟩ := hl
    have hsub : ∀ u ∈ pre, u ∈ ts := fun u hu => ho.perm.mem_iff.1 (by simp [hu])
    have hle := oks_le_one hz ((ho.perm.nodup_iff.2 hnd).sublist (List.sublist_append_left _ _)) (fun u hu w hw r r' a b => by
      obtain ⟨vs, hv⟩ := ht.tag u (hsub u hu)
      obtain ⟨ws, hv'⟩ := ht.tag w (hsub w hw)
      exact ht.unique hll hn (hsub u hu) (hsub w hw) (accepts_tag hd hs.coh hv hdata hn a) (accepts_tag hd hs.coh hv' hdata hn b))
    simp only [Nat.zero_add] at g1
    rcases hc with ⟨_, rfl⟩ | ⟨h2, _⟩
    · simp [loadExc, mkExcSubs, ExcClass.isTL]
    · omega

/-- **C55** If the member with the literal of the data accepts the data (whatever the caches hold), and the other members terminate and fail
with TypedloadExceptions only, the union returns the result of this member, with `uniondebugconflict` or without. -/
theorem C55_accepted (hd : C.Default) (hll : W.LegalLiterals) {s : LState} (hs : Reachable W C s) {k : String} {ts : List Ty}
    (hnd : ts.Nodup) (ht : TaggedUnion W C k ts) {v : Val} {kvs : List (Val × Val)} (hdata : DictData C v kvs) (hn : (strKeys kvs).Nodup)
    (htag : ¬ UnhashableTag W v ts) {p : Ty} (hp : p ∈ ts)
    (hacc : ∀ s1, Ext W C s s1 → ∃ r s2, Loads W C s1 v p r s2) (hterm : ∀ u ∈ ts, Terminates W C s v u)
    (htl : ∀ u ∈ ts, ∀ s1 e s2, Ext W C s s1 → Raises W C s1 v u e s2 → e.isTL = true) :
    ∃ r s', Loads W C s v (.union ts) r s' ∧ AcceptsAs W C s v p r := by
  rcases union_terminates hd hs.coh hterm with ⟨r, s', h⟩ | ⟨e, s', h⟩
  · obtain ⟨q, hq, _, ha, huniq⟩ := C55_tag_decides hd hll hs ht hdata hn h
    by_cases he : p = q
    · subst he; exact ⟨r, s', h, ha⟩
    · obtain ⟨r', s2, hl⟩ := hacc s (Ext.refl s)
      exact absurd ⟨s, s2, Ext.refl s, hl⟩ (huniq p hp he r')
  · exfalso
    have hcl := C55_never_ambiguous hd hll hs hnd ht hdata hn h
    obtain ⟨e', rfl, hx, ⟨_, hu | ⟨u, hu, s1, e1, s2, a, b, c⟩⟩ | ⟨order, c, r, es, ho, hl, hc⟩⟩ := union_raises hd hs.coh h
    · exact htag hu
    · rw [htl u hu s1 e1 s2 a b] at c; cases c
    · obtain ⟨pre, post, os, rfl, hz, g1, g2, g3, g4, g5⟩ := hl
      simp only [Nat.zero_add] at g1
      have h0 : oks os = [] := by
        rcases hc with ⟨h2, _⟩ | ⟨h2, rfl⟩
        · exact List.length_eq_zero_iff.1 (g1.symm.trans h2)
        · exfalso
          have := (hcl (by simp [loadExc, mkExcSubs, ExcClass.isTL])).1
          simp [loadExc, mkExcSubs, ExcClass.isTL] at this
      have hpost : post = [] := by
        cases hdbg : C.uniondebugconflict with
        | true => exact g4 hdbg
        | false =>
          rcases g5 hdbg with ⟨rfl, _⟩ | ⟨x, hx', _⟩
          · rfl
          · rw [hx'] at h0; cases h0
      subst hpost
      have hm : p ∈ pre ++ [] := ho.perm.mem_iff.2 hp
      obtain ⟨s1, s2, e, he, hr, _⟩ := (zip_oks_nil hz h0).1 p (by simpa using hm)
      obtain ⟨r', s3, hl'⟩ := hacc s1 he
      exact hl'.not_raises hr

theorem Sample.taggedUnion : TaggedUnion Sample.W Sample.C "tag" [.obj 5, .obj 6] := by
  have one : ∀ vs, TagField Sample.W Sample.C "tag" (.obj 5) vs → vs = [.str "one"] := by
    rintro vs ⟨c, f, hc, _, hf, _, hk, hty, _⟩
    cases hc
    simp only [Sample.W, Sample.cls, Sample.clsL1, List.mem_cons, List.not_mem_nil, or_false] at hf
    rcases hf with rfl | rfl
    · cases hty; rfl
    · cases hty
  have two : ∀ vs, TagField Sample.W Sample.C "tag" (.obj 6) vs → vs = [.str "two"] := by
    rintro vs ⟨c, f, hc, _, hf, _, hk, hty, _⟩
    cases hc
    simp only [Sample.W, Sample.cls, Sample.clsL2, List.mem_cons, List.not_mem_nil, or_false] at hf
    rcases hf with rfl | rfl
    · cases hty; rfl
    · cases hty
  constructor
  · intro u hu
    simp only [List.mem_cons, List.not_mem_nil, or_false] at hu
    rcases hu with rfl | rfl
    · exact ⟨[.str "one"], 5, _, rfl, ⟨by decide, by decide⟩, List.mem_cons_self .., ⟨rfl, rfl⟩, rfl, rfl, rfl⟩
    · exact ⟨[.str "two"], 6, _, rfl, ⟨by decide, by decide⟩, List.mem_cons_self .., ⟨rfl, rfl⟩, rfl, rfl, rfl⟩
  · intro u hu w hw hne vs ws hv hv' a ha b hb
    simp only [List.mem_cons, List.not_mem_nil, or_false] at hu hw
    rcases hu with rfl | rfl <;> rcases hw with rfl | rfl
    · exact absurd rfl hne
    · rw [one vs hv] at ha; rw [two ws hv'] at hb; simp at ha hb; subst ha; subst hb; decide
    · rw [two vs hv] at ha; rw [one ws hv'] at hb; simp at ha hb; subst ha; subst hb; decide
    · exact absurd rfl hne

/-- Hypotheses met: the union `Union[L1, L2]` is tagged; the tag `"two"` is the one of L2; the tag `"three"` is of no member. -/
example : TaggedUnion Sample.W Sample.C "tag" [.obj 5, .obj 6] ∧
    DictData Sample.C (.dict [(.str "tag", .str "two"), (.str "p", .int 3)]) [(.str "tag", .str "two"), (.str "p", .int 3)] ∧
    (load Sample.W { Sample.C with uniondebugconflict := true } 6 (.dict [(.str "tag", .str "two"), (.str "p", .int 3)])
      (.union [.obj 5, .obj 6]) (fresh [])).val? = some (.inst 6 [("tag", .str "two"), ("p", .int 3)]) ∧
    (load Sample.W Sample.C 6 (.dict [(.str "tag", .str "three"), (.str "p", .int 3)])
      (.union [.obj 5, .obj 6]) (fresh [])).err?.map (·.cls) = some .tlValue :=
  ⟨Sample.taggedUnion, Or.inl rfl, by decide, by decide⟩

/-! ## C56 -/

/-- The class `u` has a field for each key of the data. -/
def KnowsAll (W : World) (C : Config) (kvs : List (Val × Val)) (u : Ty) : Prop :=
  ∃ c, u = .obj c ∧ ∀ p ∈ kvs, KnownKey W C c p.1

/-- The members of the union are classes (with distinct field names). -/
def ClassUnion (W : World) (C : Config) (ts : List Ty) : Prop :=
  ∀ u ∈ ts, ∃ c, u = .obj c ∧ WFNames C (W.cls c).kind (W.cls c).fields

theorem accepts_knows (hd : C.Default) (hfoe : C.failonextra = true) {s : LState} (hc : Coh W C s) {v r : Val} {kvs : List (Val × Val)}
    {c : Nat} (hw : WFNames C (W.cls c).kind (W.cls c).fields) (hdata : DictData C v kvs) (h : AcceptsAs W C s v (.obj c) r) :
    KnowsAll W C kvs (.obj c) := by
  obtain ⟨s1, s2, he, hl⟩ := h
  refine ⟨c, rfl, fun p hp => ?_⟩
  by_cases hk : KnownKey W C c p.1
  · exact hk
  · exact absurd hl (extra_refused hd hfoe (hc.ext he) hw hdata hk (show (p.1, p.2) ∈ kvs from hp) r s2)

/-- **C56** With `failonextra`, what a union of classes returns was produced by a member that has a field for every key of the data. -/
theorem C56_knows_all (hd : C.Default) (hfoe : C.failonextra = true) {s s' : LState} (hs : Reachable W C s) {ts : List Ty}
    (hcl : ClassUnion W C ts) {v r : Val} {kvs : List (Val × Val)} (hdata : DictData C v kvs) (h : Loads W C s v (.union ts) r s') :
    ∃ p ∈ ts, KnowsAll W C kvs p ∧ AcceptsAs W C s v p r := by
  rcases C09_union_sound hd hs h with ⟨hx, _⟩ | ⟨p, hp, ha⟩
  · exact absurd hx (not_exactBasic hdata ts)
  · obtain ⟨c, rfl, hw⟩ := hcl p hp
    exact ⟨_, hp, accepts_knows hd hfoe hs.coh hw hdata ha, ha⟩

/-- **C56** With `failonextra`, if one member only has a field for every key of the data, the union returns the result of that member or
raises; and a TypedloadException is a TypedloadValueError (no member accepts), never the one of conflicting members. -/
theorem C56_unambiguous (hd : C.Default) (hfoe : C.failonextra = true) {s : LState} (hs : Reachable W C s) {ts : List Ty} (hnd : ts.Nodup)
    (hcl : ClassUnion W C ts) {v : Val} {kvs : List (Val × Val)} (hdata : DictData C v kvs) {p : Ty}
    (hone : ∀ u ∈ ts, KnowsAll W C kvs u → u = p) :
    (∀ r s', Loads W C s v (.union ts) r s' → AcceptsAs W C s v p r) ∧
    (∀ e s', Raises W C s v (.union ts) e s' → e.isTL = true → e.cls = .tlValue ∧ e.msg = .unionNone (.union ts)) := by
  constructor
  · intro r s' h
    obtain ⟨q, hq, hk, ha⟩ := C56_knows_all hd hfoe hs hcl hdata h
    rw [← hone q hq hk]; exact ha
  · intro e s' h htl
    obtain ⟨e', rfl, hx, ⟨h1, _⟩ | ⟨order, c, r, es, ho, hl, hc⟩⟩ := union_raises hd hs.coh h
    · simp [loadExc, h1, ExcClass.isTL] at htl
    · obtain ⟨pre, post, os, rfl, hz, g1, -⟩ := hl
      have hsub : ∀ u ∈ pre, u ∈ ts := fun u hu => ho.perm.mem_iff.1 (by simp [hu])
      have hle := oks_le_one hz ((ho.perm.nodup_iff.2 hnd).sublist (List.sublist_append_left _ _)) (fun u hu w hw r r' a b => by
        obtain ⟨c1, rfl, hw1⟩ := hcl u (hsub u hu)
        obtain ⟨c2, rfl, hw2⟩ := hcl w (hsub w hw)
        rw [hone _ (hsub _ hu) (accepts_knows hd hfoe hs.coh hw1 hdata a), hone _ (hsub _ hw) (accepts_knows hd hfoe hs.coh hw2 hdata b)])
      simp only [Nat.zero_add] at g1
      rcases hc with ⟨_, rfl⟩ | ⟨h2, _⟩
      · simp [loadExc, mkExcSubs, ExcClass.isTL]
      · omega

/-- Hypotheses met: of `N` (fields a, b) and `P` (data keys x, zed, y), only `P` has a field for the keys x and zed. -/
example : ClassUnion Sample.W { Sample.C with failonextra := true } [.obj 1, .obj 0] ∧
    (∀ u ∈ [Ty.obj 1, .obj 0], KnowsAll Sample.W { Sample.C with failonextra := true } [(.str "x", .int 1), (.str "zed", .str "s")] u → u = .obj 0) ∧
    (load Sample.W { Sample.C with failonextra := true } 6 (.dict [(.str "x", .int 1), (.str "zed", .str "s")])
      (.union [.obj 1, .obj 0]) (fresh [])).val? = some (.inst 0 [("x", .int 1), ("z", .str "s"), ("y", .int 5)]) := by
  refine ⟨?_, ?_, by decide⟩
  · intro u hu
    simp only [List.mem_cons, List.not_mem_nil, or_false] at hu
    rcases hu with rfl | rfl
    · exact ⟨1, rfl, by decide, by decide⟩
    · exact ⟨0, rfl, by decide, by decide⟩
  · intro u hu h
    simp only [List.mem_cons, List.not_mem_nil, or_false] at hu
    rcases hu with rfl | rfl
    · obtain ⟨c, hc, h⟩ := h
      cases hc
      exact absurd (h (.str "x", .int 1) (by simp)) (by decide)
    · rfl

end TL
