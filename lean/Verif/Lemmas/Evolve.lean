import Verif.Spec.Evolution
import Verif.Lemmas.SameRun
/-!
# Loading the data of an old program into the types of a new one

`Up R m m'`: when the old load `m` returns `a`, the new one returns, with enough fuel, some `b` with `R a b`.  (A StopIteration has to be kept as
well: `map` takes it as the end of the data.)
-/

namespace TL

set_option linter.unusedSectionVars false

def UpRes {α β : Type} (Q : α → β → Prop) : Res Unit Exc α → (Nat → R β) → Prop
  | .ok a _, m => ∃ b, Ok m b ∧ Q a b
  | .err e _, m => e.cls = .stopIteration → ∃ e', Er m e' ∧ e'.cls = .stopIteration
  | .div, _ => True

def Up {α β : Type} (Q : α → β → Prop) (m : R α) (m' : Nat → R β) : Prop := UpRes Q (m ()) m'

section up
variable {α β γ δ : Type} {Q : α → β → Prop} {Q' : γ → δ → Prop}

theorem Up.pure {a : α} {b : β} (h : Q a b) : Up Q (Pure.pure a) (fun _ => Pure.pure b) := ⟨b, Ok.pure b, h⟩
theorem Up.throw {e : Exc} (m' : Nat → R β) (h : e.cls ≠ .stopIteration) : Up Q (M.throw e) m' := fun hc => absurd hc h
theorem Up.throw2 {e e' : Exc} (h : e.cls = .stopIteration → e'.cls = .stopIteration) : Up Q (M.throw e) (fun _ => (M.throw e' : R β)) :=
  fun hc => ⟨e', Er.throw e', h hc⟩

theorem Up.bind {m : R α} {m' : Nat → R β} {f : α → R γ} {f' : Nat → β → R δ} (hm : Up Q m m')
    (hf : ∀ a b, Q a b → Up Q' (f a) (fun n => f' n b)) : Up Q' (m >>= f) (fun n => m' n >>= f' n) := by
  unfold Up at *
  simp only [M.bind_apply]
  cases h : m () with
  | ok a u =>
    rw [h] at hm
    obtain ⟨b, h1, h2⟩ := hm
    have := hf a b h2
    dsimp only
    cases hfa : f a () with
    | ok c u =>
      rw [hfa] at this
      obtain ⟨d, h3, h4⟩ := this
      exact ⟨d, Ok.bind h1 h3, h4⟩
    | err e u =>
      rw [hfa] at this
      intro hc
      obtain ⟨e', h3, h4⟩ := this hc
      exact ⟨e', Er.bind2 h1 h3, h4⟩
    | div => trivial
  | err e u =>
    rw [h] at hm
    intro hc
    obtain ⟨e', h1, h2⟩ := hm hc
    exact ⟨e', Er.bind1 h1, h2⟩
  | div => trivial

/-- The same, knowing what the first load returned. -/
theorem Up.bindv {m : R α} {m' : Nat → R β} {f : α → R γ} {f' : Nat → β → R δ} (hm : Up Q m m')
    (hf : ∀ a b u, m () = .ok a u → Q a b → Up Q' (f a) (fun n => f' n b)) : Up Q' (m >>= f) (fun n => m' n >>= f' n) := by
  refine Up.bind (Q := fun a b => (∃ u, m () = .ok a u) ∧ Q a b) ?_ (fun a b h => h.1.elim (fun u hu => hf a b u hu h.2))
  unfold Up at *
  cases h : m () with
  | ok a u => rw [h] at hm; obtain ⟨b, h1, h2⟩ := hm; exact ⟨b, h1, ⟨u, rfl⟩, h2⟩
  | err e u => rw [h] at hm; exact hm
  | div => trivial

/-- An exception handler that raises again. -/
theorem Up.rescue {m : R α} {m' : Nat → R β} {f f' : Exc → Exc} (hm : Up Q m m') (hf : ∀ e, (f e).cls = .stopIteration → e.cls = .stopIteration)
    (hf' : ∀ e e', e.cls = .stopIteration → e'.cls = .stopIteration → (f e).cls = .stopIteration → (f' e').cls = .stopIteration) :
    Up Q (M.rescue m (fun e => M.throw (f e))) (fun n => M.rescue (m' n) (fun e => M.throw (f' e))) := by
  unfold Up at *
  simp only [M.catch_apply]
  cases h : m () with
  | ok a u =>
    rw [h] at hm
    obtain ⟨b, h1, h2⟩ := hm
    exact ⟨b, Ok.rescue h1, h2⟩
  | err e u =>
    rw [h] at hm
    intro hc
    obtain ⟨e', h1, h2⟩ := hm (hf e hc)
    exact ⟨f' e', Er.rescue h1 (Er.throw _), hf' e e' (hf e hc) h2 hc⟩
  | div => trivial

theorem Up.ite {c : Prop} [Decidable c] {a b : R α} {a' b' : Nat → R β} (h1 : c → Up Q a a') (h2 : ¬ c → Up Q b b') :
    Up Q (if c then a else b) (fun n => if c then a' n else b' n) := by
  by_cases h : c
  · simp only [if_pos h]; exact h1 h
  · simp only [if_neg h]; exact h2 h

theorem Up.mono {Q2 : α → β → Prop} {m : R α} {m' : Nat → R β} (hm : Up Q m m') (h : ∀ a b, Q a b → Q2 a b) : Up Q2 m m' := by
  unfold Up at *
  cases hx : m () with
  | ok a u => rw [hx] at hm; obtain ⟨b, h1, h2⟩ := hm; exact ⟨b, h1, h a b h2⟩
  | err e u => rw [hx] at hm; exact hm
  | div => trivial
end up

variable {W : World} {C : Config} {V : Nat → Nat → Prop} {Γ Γ' : Env} {v0 : Val} {t0 : Ty}

/-! ## Renaming -/

/-- The field that has its data under the key. -/
def fieldOf (C : Config) (k : ObjKind) (fs : List Field) (a : Val) : Option String :=
  (strKey a).bind (fun n => (fs.find? (fun f => extName C k f == n)).map (·.name))

/-- The data of fields, under the names of the fields. -/
def given (C : Config) (k : ObjKind) (fs : List Field) (kvs : List (Val × Val)) : List (String × Val) :=
  kvs.filterMap (fun p => (fieldOf C k fs p.1).map (fun n => (n, p.2)))

/-- The data under names. -/
def named (names : List String) (kvs : List (Val × Val)) : List (String × Val) :=
  kvs.filterMap (fun p => (strKey p.1).bind (fun n => if names.contains n then some (n, p.2) else none))

theorem fieldOf_iff {k : ObjKind} {fs : List Field} (hw : WFNames C k fs) {a : Val} {n : String} :
    fieldOf C k fs a = some n ↔ ∃ f ∈ fs, a = .str (extName C k f) ∧ f.name = n := by
  unfold fieldOf
  constructor
  · intro h
    cases hs : strKey a with
    | none => rw [hs] at h; cases h
    | some m =>
      rw [hs] at h
      simp only [Option.bind_some, Option.map_eq_some_iff] at h
      obtain ⟨f, hf, rfl⟩ := h
      have := List.find?_some hf
      exact ⟨f, List.mem_of_find?_eq_some hf, by rw [strKey_eq.1 hs, ← eq_of_beq this], rfl⟩
  · rintro ⟨f, hf, rfl, rfl⟩
    simp only [strKey, Option.bind_some, Option.map_eq_some_iff]
    cases hx : fs.find? (fun g => extName C k g == extName C k f) with
    | none =>
      have := List.find?_eq_none.1 hx f hf
      simp at this
    | some g =>
      have h1 := List.find?_some hx
      have : g = f := nodup_map_inj hw.exts (List.mem_of_find?_eq_some hx) hf (by simpa using h1)
      exact ⟨g, rfl, by rw [this]⟩

theorem named_append (names : List String) (l l' : List (Val × Val)) : named names (l ++ l') = named names l ++ named names l' := by
  unfold named; rw [List.filterMap_append]

theorem named_dset_other {names : List String} {a x : Val} (ha : ∀ n, a = .str n → n ∉ names) (l : List (Val × Val)) :
    named names (dset l a x) = named names l := by
  have hnone : ∀ y : Val, ((strKey a).bind (fun n => if names.contains n then some (n, y) else none)) = none := by
    intro y
    cases hs : strKey a with
    | none => rfl
    | some n =>
      have := ha n (strKey_eq.1 hs)
      simp [this]
  induction l with
  | nil => simp only [dset, named, List.filterMap_cons, hnone x, List.filterMap_nil]
  | cons p l ih =>
    obtain ⟨b, y⟩ := p
    simp only [dset]
    split
    · rename_i he
      have hb : ∀ z : Val, ((strKey b).bind (fun n => if names.contains n then some (n, z) else none)) = none := by
        intro z
        cases hs : strKey b with
        | none => rfl
        | some n =>
          have hbn := strKey_eq.1 hs
          subst hbn
          have : a = .str n := by
            first
            | exact (pyEq_str_left a n).1 he
            | exact (pyEq_str_right a n).1 he
          have := ha n this
          simp [this]
      simp only [named, List.filterMap_cons, hb]
    · unfold named at ih ⊢
      rw [List.filterMap_cons, List.filterMap_cons, ih]

/-- Renaming puts the data of the fields under their names, in the same order. -/
theorem named_mangle {k : ObjKind} {fs : List Field} (hw : WFNames C k fs) {foe : Bool} (kvs : List (Val × Val)) : ∀ acc r : List (Val × Val),
    (strKeys kvs).Nodup → (∀ f ∈ fs, extName C k f ∈ strKeys kvs → f.name ∉ strKeys acc) →
    mangleLoop (transformsOf (renamed C k) fs []) foe kvs acc = .ok r →
    named (fs.map (·.name)) r = named (fs.map (·.name)) acc ++ given C k fs kvs := by
  induction kvs with
  | nil => intro acc r _ _ h; cases h; simp [given]
  | cons p kvs ih =>
    obtain ⟨a, x⟩ := p
    intro acc r hnd hacc h
    have hkeys : ∀ m, m ∈ strKeys kvs → m ∈ strKeys ((a, x) :: kvs) := by
      intro m hm
      obtain ⟨y, hy⟩ := mem_strKeys.1 hm
      exact mem_strKeys.2 ⟨y, by simp [hy]⟩
    have hnd' : (strKeys kvs).Nodup := by
      unfold strKeys at hnd ⊢
      rw [List.filterMap_cons] at hnd
      cases h' : strKey (a, x).1 with
      | none => rw [h'] at hnd; exact hnd
      | some _ => rw [h'] at hnd; exact (List.nodup_cons.1 hnd).2
    have hgiven : given C k fs ((a, x) :: kvs) = (match fieldOf C k fs a with
        | some n => [(n, x)]
        | none => []) ++ given C k fs kvs := by
      unfold given
      rw [List.filterMap_cons]
      cases fieldOf C k fs a <;> rfl
    rw [hgiven]
    have other : ∀ acc', named (fs.map (·.name)) acc' = named (fs.map (·.name)) acc →
        (∀ f ∈ fs, extName C k f ∈ strKeys kvs → f.name ∉ strKeys acc') → fieldOf C k fs a = none →
        mangleLoop (transformsOf (renamed C k) fs []) foe kvs acc' = .ok r →
        named (fs.map (·.name)) r = named (fs.map (·.name)) acc ++ ((match fieldOf C k fs a with
          | some n => [(n, x)]
          | none => []) ++ given C k fs kvs) := by
      intro acc' h1 h2 h3 h4
      rw [ih acc' r hnd' h2 h4, h1, h3]; rfl
    have keep : ∀ f ∈ fs, extName C k f ∈ strKeys kvs → f.name ∉ strKeys acc := fun f hf hm => hacc f hf (hkeys _ hm)
    cases hs : strKey a with
    | none =>
      have hne : ∀ n, a ≠ .str n := fun n hn => by rw [hn] at hs; cases hs
      rw [mangleLoop_other _ _ hs] at h
      refine other _ (named_dset_other (fun n hn => absurd hn (hne n)) _) (fun f hf hm => ?_) ?_ h
      · rcases strKeys_dset acc a x with he | ⟨n, hn, _⟩
        · rw [he]; exact keep f hf hm
        · exact absurd hn (hne n)
      · unfold fieldOf; rw [hs]; rfl
    | some n =>
      rw [strKey_eq] at hs; subst hs
      rw [mangleLoop_str] at h
      by_cases hg : ∃ g ∈ fs, extName C k g = n
      · obtain ⟨g, hg, rfl⟩ := hg
        rw [(fieldOf_iff hw).2 ⟨g, hg, rfl, rfl⟩]
        have hin : extName C k g ∈ strKeys ((Val.str (extName C k g), x) :: kvs) := mem_strKeys.2 ⟨x, by simp⟩
        have hnew : dset acc (.str g.name) x = acc ++ [(.str g.name, x)] := by
          refine dset_new (fun p hp => ?_)
          cases he : pyEq p.1 (.str g.name) with
          | false => rfl
          | true =>
            have := (pyEq_str_right _ _).1 he
            exact absurd (mem_strKeys.2 ⟨p.2, by rw [← this]; exact hp⟩) (hacc g hg hin)
        have hrun : mangleLoop (transformsOf (renamed C k) fs []) foe kvs (acc ++ [(.str g.name, x)]) = .ok r := by
          rw [keyFate_ext hw hg] at h
          cases hr : renamed C k g with
          | some m => rw [hr] at h; simp only [Option.isSome_some, if_true] at h; rw [← hnew]; exact h
          | none =>
            rw [hr] at h
            simp only [Option.isSome_none, Bool.false_eq_true, if_false] at h
            have he : extName C k g = g.name := by simp [extName, hr]
            rw [he] at h; rw [← hnew]; exact h
        have hnotin : extName C k g ∉ strKeys kvs := (List.nodup_cons.1 (show (extName C k g :: strKeys kvs).Nodup from hnd)).1
        rw [ih _ r hnd' (fun f hf hm => ?_) hrun, named_append]
        · have : named (fs.map (·.name)) [(Val.str g.name, x)] = [(g.name, x)] := by
            have hmem : (fs.map (·.name)).contains g.name = true := by
              rw [List.contains_iff_mem]; exact List.mem_map.2 ⟨g, hg, rfl⟩
            simp only [named, List.filterMap_cons, strKey, Option.bind_some, hmem, if_true, List.filterMap_nil]
          rw [this, List.append_assoc]
        · have hgf : f ≠ g := by rintro rfl; exact hnotin hm
          have hnm : f.name ≠ g.name := fun he => hgf (nodup_map_inj hw.names hf hg he)
          have : strKeys (acc ++ [(Val.str g.name, x)]) = strKeys acc ++ [g.name] := by
            unfold strKeys; rw [List.filterMap_append]; rfl
          rw [this]
          simp only [List.mem_append, List.mem_singleton, not_or]
          exact ⟨keep f hf hm, hnm⟩
      · have hg' : ∀ g ∈ fs, extName C k g ≠ n := fun g hgm h => hg ⟨g, hgm, h⟩
        have hfo : fieldOf C k fs (.str n) = none := by
          cases hx : fieldOf C k fs (.str n) with
          | none => rfl
          | some m =>
            obtain ⟨f, hf, h1, _⟩ := (fieldOf_iff hw).1 hx
            exact absurd (Val.str.inj h1).symm (hg' f hf)
        rcases keyFate_other hw hg' with ⟨hd, _⟩ | ⟨hk', hno⟩
        · rw [hd] at h
          cases foe with
          | true => simp at h
          | false => simp only [Bool.false_eq_true, if_false] at h; exact other acc rfl keep hfo h
        · rw [hk'] at h
          simp only at h
          refine other _ (named_dset_other (fun m hm => ?_) _) (fun f hf hm => ?_) hfo h
          · cases hm
            intro hmem
            obtain ⟨f, hf, he⟩ := List.mem_map.1 hmem
            exact hno f hf he
          · rcases strKeys_dset acc (.str n) x with he | ⟨m, hm', _, he⟩
            · rw [he]; exact keep f hf hm
            · cases hm'
              rw [he]
              simp only [List.mem_append, List.mem_singleton, not_or]
              exact ⟨keep f hf hm, hno f hf⟩

/-- The data of the fields of a class, in the order of the data. -/
theorem Mangled.named {c : Nat} {info : ObjInfo} (hi : InfoFor W C c info) (hw : WFNames C (W.cls c).kind (W.cls c).fields) {v : Val}
    {kvs kvs' : List (Val × Val)} (hm : Mangled C info.transforms v kvs kvs') (hn : (strKeys kvs).Nodup) :
    TL.named info.fields kvs' = given C (W.cls c).kind (W.cls c).fields kvs := by
  rw [hi.fields]
  rcases hm.2 with ⟨h1, rfl⟩ | ⟨_, _, h2⟩
  · have hr : ∀ f ∈ (W.cls c).fields, extName C (W.cls c).kind f = f.name := by
      intro f hf
      cases hr : renamed C (W.cls c).kind f with
      | none => simp [extName, hr]
      | some n =>
        have := (transforms_aget hw n f.name).2 ⟨f, hf, hr, rfl⟩
        rw [← hi.transforms, h1] at this; cases this
    unfold TL.named given
    congr 1
    funext p
    obtain ⟨a, x⟩ := p
    dsimp only
    cases hs : strKey a with
    | none => simp [fieldOf, hs]
    | some n =>
      have := strKey_eq.1 hs; subst this
      by_cases hmem : n ∈ (W.cls c).fields.map (·.name)
      · obtain ⟨f, hf, rfl⟩ := List.mem_map.1 hmem
        rw [(fieldOf_iff hw).2 ⟨f, hf, by rw [hr f hf], rfl⟩]
        rw [← List.contains_iff_mem] at hmem
        simp only [Option.bind_some, hmem, if_true, Option.map_some]
      · have : fieldOf C (W.cls c).kind (W.cls c).fields (.str n) = none := by
          cases hx : fieldOf C (W.cls c).kind (W.cls c).fields (.str n) with
          | none => rfl
          | some m =>
            obtain ⟨f, hf, h3, _⟩ := (fieldOf_iff hw).1 hx
            rw [hr f hf] at h3
            exact absurd (List.mem_map.2 ⟨f, hf, (Val.str.inj h3).symm⟩) hmem
        rw [this]
        rw [← List.contains_iff_mem] at hmem
        simp only [Option.bind_some, hmem, Bool.false_eq_true, if_false, Option.map_none]
  · rw [hi.transforms] at h2
    have := named_mangle hw kvs [] kvs' hn (fun f _ _ => by simp [strKeys]) h2
    simpa [TL.named] using this

theorem objFields_named {rec : Ref.Rec} {info : ObjInfo} {v : Val} {t : Ty} (kvs : List (Val × Val)) : ∀ acc,
    Ref.objFields W C rec info v t kvs acc = Ref.objFields W C rec info v t ((named info.fields kvs).map (fun p => (.str p.1, p.2))) acc := by
  induction kvs with
  | nil => intro acc; rfl
  | cons p kvs ih =>
    obtain ⟨a, x⟩ := p
    intro acc
    cases hs : strKey a with
    | none =>
      have : named info.fields ((a, x) :: kvs) = named info.fields kvs := by
        unfold named; rw [List.filterMap_cons]; simp only [hs]; rfl
      rw [this, ← ih]
      cases a <;> simp [strKey] at hs <;> rfl
    | some n =>
      have := strKey_eq.1 hs; subst this
      by_cases hc : info.fields.contains n = true
      · have : named info.fields ((.str n, x) :: kvs) = (n, x) :: named info.fields kvs := by
          unfold named; rw [List.filterMap_cons]; simp only [strKey, Option.bind_some, hc, if_true]
        rw [this, List.map_cons]
        simp only [Ref.objFields, hc, if_true]
        cases aget info.hints n with
        | none => rfl
        | some ft => simp only [← ih]
      · have : named info.fields ((.str n, x) :: kvs) = named info.fields kvs := by
          unfold named; rw [List.filterMap_cons]; simp only [strKey, Option.bind_some, hc]; rfl
        rw [this, ← ih]
        simp only [Ref.objFields, hc]; rfl

theorem filterMap_same {α β : Type} {f g : α → Option β} {l : List α} (h : ∀ a ∈ l, f a = g a) : l.filterMap f = l.filterMap g := by
  induction l with
  | nil => rfl
  | cons a l ih => rw [List.filterMap_cons, List.filterMap_cons, h a (by simp), ih (fun b hb => h b (by simp [hb]))]

/-- The two versions of a class read the same data. -/
theorem given_newer {c d : Nat} (hu : NewerClass W C V Γ Γ' c d) {kvs : List (Val × Val)}
    (hadd : ∀ f, AddedField W c d f → extName C (W.cls d).kind f ∉ strKeys kvs) :
    given C (W.cls d).kind (W.cls d).fields kvs = given C (W.cls c).kind (W.cls c).fields kvs := by
  unfold given
  refine filterMap_same (fun p hp => ?_)
  obtain ⟨a, x⟩ := p
  dsimp only
  congr 1
  cases h : fieldOf C (W.cls c).kind (W.cls c).fields a with
  | some n =>
    obtain ⟨f, hf, rfl, rfl⟩ := (fieldOf_iff hu.oldNames).1 h
    obtain ⟨g, hg, hn⟩ := hu.kept f hf
    exact (fieldOf_iff hu.newNames).2 ⟨g, hg, by rw [hn.key], hn.name⟩
  | none =>
    cases h' : fieldOf C (W.cls d).kind (W.cls d).fields a with
    | none => rfl
    | some n =>
      obtain ⟨g, hg, rfl, rfl⟩ := (fieldOf_iff hu.newNames).1 h'
      exfalso
      by_cases hold : ∃ f ∈ (W.cls c).fields, f.name = g.name
      · obtain ⟨f, hf, hfn⟩ := hold
        obtain ⟨g', hg', hn⟩ := hu.kept f hf
        have : g' = g := nodup_map_inj hu.newNames.names hg' hg (by rw [hn.name, hfn])
        subst this
        rw [(fieldOf_iff hu.oldNames).2 ⟨f, hf, by rw [hn.key], rfl⟩] at h
        cases h
      · exact hadd g ⟨hg, fun f hf he => hold ⟨f, hf, he⟩⟩ (mem_strKeys.2 ⟨x, hp⟩)

/-- Names with values that have grown. -/
def GrownArgs (W : World) (V : Nat → Nat → Prop) : List (String × Val) → List (String × Val) → Prop :=
  Zip2 (fun p q => p.1 = q.1 ∧ Grown W V p.2 q.2)

theorem Zip2.at {α β : Type} {Q : α → β → Prop} {l : List α} {l' : List β} (h : Zip2 Q l l') : ∀ (i : Nat) (a : α) (b : β),
    l[i]? = some a → l'[i]? = some b → Q a b := by
  induction h with
  | nil => intro i a b h; simp at h
  | cons hab _ ih =>
    intro i a b h1 h2
    cases i with
    | zero => simp at h1 h2; subst h1; subst h2; exact hab
    | succ i => simp at h1 h2; exact ih i a b h1 h2

theorem Grown.of_zip {k : SeqKind} {xs ys : List Val} (h : Zip2 (Grown W V) xs ys) : Grown W V (.seq k xs) (.seq k ys) := .seq h.length_eq h.at

theorem Grown.of_pairs {kvs kvs' : List (Val × Val)} (h : Zip2 (fun p q => p.1 = q.1 ∧ Grown W V p.2 q.2) kvs kvs') : Grown W V (.dict kvs) (.dict kvs') := by
  refine .dict ?_ (fun i p q hp hq => (h.at i p q hp hq).2)
  induction h with
  | nil => rfl
  | cons hpq _ ih => rw [List.map_cons, List.map_cons, hpq.1, ih]

theorem GrownArgs.aset {ps qs : List (String × Val)} {n : String} {x y : Val} (h : GrownArgs W V ps qs) (hxy : Grown W V x y) :
    GrownArgs W V (aset ps n x) (aset qs n y) := by
  induction h with
  | nil => exact .cons ⟨rfl, hxy⟩ .nil
  | @cons p q ps qs hpq h ih =>
    obtain ⟨a, u⟩ := p
    obtain ⟨b, w⟩ := q
    obtain ⟨h1, h2⟩ := hpq
    dsimp only at h1; subst h1
    simp only [TL.aset]
    split
    · exact .cons ⟨rfl, hxy⟩ h
    · exact .cons ⟨rfl, h2⟩ ih

theorem GrownArgs.aget {ps qs : List (String × Val)} (h : GrownArgs W V ps qs) (n : String) :
    (TL.aget ps n = none ∧ TL.aget qs n = none) ∨ ∃ x y, TL.aget ps n = some x ∧ TL.aget qs n = some y ∧ Grown W V x y := by
  induction h with
  | nil => exact Or.inl ⟨rfl, rfl⟩
  | @cons p q ps qs hpq h ih =>
    obtain ⟨a, u⟩ := p
    obtain ⟨b, w⟩ := q
    obtain ⟨h1, h2⟩ := hpq
    dsimp only at h1; subst h1
    simp only [TL.aget]
    by_cases ha : a = n
    · subst ha; right; exact ⟨u, w, by simp, by simp, h2⟩
    · simp only [if_neg ha]; exact ih

/-! ## Constructing -/

theorem fillFields_args {params : List (String × Val)} (fl : List Field) : ∀ fs, fillFields params fl = .ok fs →
    ∀ f ∈ fl, (aget params f.name).isSome = true ∨ f.default.isSome = true ∨ f.init = false := by
  induction fl with
  | nil => intro fs _ f hf; cases hf
  | cons g fl ih =>
    intro fs h f hf
    simp only [fillFields] at h
    cases hg : fillField params g with
    | error e => rw [hg] at h; cases h
    | ok p =>
      rw [hg] at h
      cases hr : fillFields params fl with
      | error e => rw [hr] at h; cases h
      | ok ps =>
        rcases List.mem_cons.1 hf with rfl | hf
        · unfold fillField at hg
          cases ha : aget params f.name with
          | some x => exact Or.inl rfl
          | none =>
            rw [ha] at hg
            cases hd : f.default with
            | some d => exact Or.inr (Or.inl rfl)
            | none =>
              rw [hd] at hg
              cases hi : f.init with
              | false => exact Or.inr (Or.inr rfl)
              | true => rw [hi] at hg; cases hg
        · exact ih ps hr f hf

theorem fillFields_total {params : List (String × Val)} (fl : List Field)
    (h : ∀ f ∈ fl, (aget params f.name).isSome = true ∨ f.default.isSome = true ∨ f.init = false) : ∃ fs, fillFields params fl = .ok fs := by
  induction fl with
  | nil => exact ⟨[], rfl⟩
  | cons g fl ih =>
    obtain ⟨fs, hfs⟩ := ih (fun f hf => h f (by simp [hf]))
    have : ∃ p, fillField params g = .ok p := by
      unfold fillField
      cases ha : aget params g.name with
      | some x => exact ⟨_, rfl⟩
      | none =>
        cases hd : g.default with
        | some d => exact ⟨_, rfl⟩
        | none =>
          rcases h g (by simp) with h | h | h
          · rw [ha] at h; cases h
          · rw [hd] at h; cases h
          · rw [h]; exact ⟨_, rfl⟩
    obtain ⟨p, hp⟩ := this
    exact ⟨p ++ fs, by simp only [fillFields, hp, hfs]⟩

theorem aget_append {α : Type} (l l' : List (String × α)) (n : String) : aget (l ++ l') n = (aget l n).or (aget l' n) := by
  induction l with
  | nil => simp [aget]
  | cons p l ih =>
    obtain ⟨m, x⟩ := p
    simp only [List.cons_append, aget]
    split
    · simp
    · exact ih

theorem fillFields_aget {params : List (String × Val)} (fl : List Field) (hn : (fl.map (·.name)).Nodup) : ∀ fs, fillFields params fl = .ok fs →
    (∀ f ∈ fl, aget fs f.name = (aget params f.name).or f.default) ∧ ∀ n, n ∉ fl.map (·.name) → aget fs n = none := by
  induction fl with
  | nil => intro fs h; cases h; exact ⟨fun f hf => (by cases hf), fun _ _ => rfl⟩
  | cons g fl ih =>
    intro fs h
    rw [List.map_cons, List.nodup_cons] at hn
    simp only [fillFields] at h
    cases hg : fillField params g with
    | error e => rw [hg] at h; cases h
    | ok p =>
      rw [hg] at h
      cases hr : fillFields params fl with
      | error e => rw [hr] at h; cases h
      | ok ps =>
        rw [hr] at h
        cases h
        obtain ⟨h1, h2⟩ := ih hn.2 ps hr
        have hp : (∀ n, n ≠ g.name → aget p n = none) ∧ aget p g.name = (aget params g.name).or g.default := by
          unfold fillField at hg
          cases ha : aget params g.name with
          | some x => rw [ha] at hg; cases hg; exact ⟨fun n hn => by simp [aget, hn.symm], by simp [aget]⟩
          | none =>
            rw [ha] at hg
            cases hd : g.default with
            | some d => rw [hd] at hg; cases hg; exact ⟨fun n hn => by simp [aget, hn.symm], by simp [aget]⟩
            | none =>
              rw [hd] at hg
              cases hi : g.init with
              | false => rw [hi] at hg; cases hg; exact ⟨fun _ _ => rfl, rfl⟩
              | true => rw [hi] at hg; cases hg
        refine ⟨fun f hf => ?_, fun n hm => ?_⟩
        · rw [aget_append]
          rcases List.mem_cons.1 hf with rfl | hf
          · rw [hp.2, h2 _ hn.1]; simp
          · have : f.name ≠ g.name := fun he => hn.1 (List.mem_map.2 ⟨f, hf, he⟩)
            rw [hp.1 _ this, h1 f hf]; simp
        · rw [List.map_cons, List.mem_cons, not_or] at hm
          rw [aget_append, hp.1 n hm.1, h2 n hm.2]; rfl

section
variable {c d : Nat} (hu : NewerClass W C V Γ Γ' c d) {params params' : List (String × Val)} (hg : GrownArgs W V params params')
  (hsub : ∀ n x, aget params n = some x → n ∈ (W.cls c).fields.map (·.name))
include hu hg hsub

/-- The attributes of the new instance; the arguments of the old one are all there. -/
theorem args_newer (hk : (W.cls d).kind ≠ .typeddict)
    (hargs : ∀ f ∈ (W.cls c).fields, (aget params f.name).isSome = true ∨ f.default.isSome = true ∨ f.init = false ∨ ¬ Required (W.cls c).kind f) :
    ∃ fs', fillFields params' (W.cls d).fields = .ok fs' := by
  have hreq : ∀ g : Field, ¬ Required (W.cls d).kind g → g.default.isSome = true ∨ g.init = false := by
    intro g hr
    cases hd : g.default with
    | some d' => exact Or.inl rfl
    | none =>
      right
      cases hi : g.init with
      | false => rfl
      | true =>
        exfalso; apply hr
        unfold Required
        cases hkk : (W.cls d).kind with
        | namedtuple => exact hd
        | dataclass => exact ⟨hi, hd⟩
        | attrs => exact ⟨hi, hd⟩
        | typeddict => exact absurd hkk hk
  refine fillFields_total _ (fun g hgm => ?_)
  by_cases hold : ∃ f ∈ (W.cls c).fields, f.name = g.name
  · obtain ⟨f, hf, hfn⟩ := hold
    obtain ⟨g', hg', hn⟩ := hu.kept f hf
    have : g' = g := nodup_map_inj hu.newNames.names hg' hgm (by rw [hn.name, hfn])
    subst this
    rcases hargs f hf with ha | ha | ha | ha
    · left
      rcases hg.aget f.name with ⟨h3, _⟩ | ⟨x, y, _, h3, _⟩
      · rw [h3] at ha; cases ha
      · rw [hn.name, h3]; rfl
    · right; left
      obtain ⟨d', hd'⟩ := Option.isSome_iff_exists.1 ha
      rw [hn.default d' hd']; rfl
    · right; right; rw [hn.init]; exact ha
    · exact Or.inr (hreq _ (fun h => ha (hn.required h)))
  · exact Or.inr (hreq g (hu.added g ⟨hgm, fun f hf he => hold ⟨f, hf, he⟩⟩))

/-- The attributes of the new instance are those of the old one. -/
theorem fields_newer {fs fs' : List (String × Val)}
    (h1 : ∀ f ∈ (W.cls c).fields, ∀ x, aget fs f.name = some x → (aget params f.name).or f.default = some x)
    (h1' : ∀ f ∈ (W.cls c).fields, aget fs f.name = none → aget params f.name = none)
    (h2 : ∀ n, n ∉ (W.cls c).fields.map (·.name) → aget fs n = none) (hfs' : fillFields params' (W.cls d).fields = .ok fs') :
    (∀ n x, aget fs n = some x → (aget fs' n).isSome = true) ∧
      (∀ n x y, aget fs n = some x → aget fs' n = some y → Grown W V x y) ∧
      (∀ n y, aget fs n = none → aget fs' n = some y → ∃ f ∈ (W.cls d).fields, f.name = n ∧ f.default = some y) := by
  obtain ⟨h3, h4⟩ := fillFields_aget _ hu.newNames.names _ hfs'
  have both : ∀ n x, aget fs n = some x → ∃ f ∈ (W.cls c).fields, ∃ g ∈ (W.cls d).fields, f.name = n ∧
      NewerField W C V Γ Γ' (W.cls c).kind (W.cls d).kind f g ∧
      (aget params n).or f.default = some x ∧ aget fs' n = (aget params' n).or g.default := by
    intro n x hx
    have hn : n ∈ (W.cls c).fields.map (·.name) := by
      apply Classical.byContradiction; intro hn; rw [h2 n hn] at hx; cases hx
    obtain ⟨f, hf, rfl⟩ := List.mem_map.1 hn
    obtain ⟨g, hgm, hng⟩ := hu.kept f hf
    refine ⟨f, hf, g, hgm, rfl, hng, h1 f hf x hx, ?_⟩
    have := h3 g hgm
    rw [hng.name] at this; exact this
  refine ⟨fun n x hx => ?_, fun n x y hx hy => ?_, fun n y hx hy => ?_⟩
  · obtain ⟨f, hf, g, hgm, hfn, hng, h5, h6⟩ := both n x hx
    rw [h6]
    rcases hg.aget n with ⟨h7, h8⟩ | ⟨a, b, h7, h8, _⟩
    · rw [h7] at h5; rw [h8]
      simp only [Option.none_or] at h5 ⊢
      rw [hng.default x h5]; rfl
    · rw [h8]; rfl
  · obtain ⟨f, hf, g, hgm, hfn, hng, h5, h6⟩ := both n x hx
    rw [h6] at hy
    rcases hg.aget n with ⟨h7, h8⟩ | ⟨a, b, h7, h8, hab⟩
    · rw [h7] at h5; rw [h8] at hy
      simp only [Option.none_or] at h5 hy
      rw [hng.default x h5] at hy
      cases hy; exact .same
    · rw [h7] at h5; rw [h8] at hy
      simp only [Option.some_or] at h5 hy
      cases h5; cases hy; exact hab
  · have hn : n ∈ (W.cls d).fields.map (·.name) := by
      apply Classical.byContradiction; intro hn; rw [h4 n hn] at hy; cases hy
    obtain ⟨g, hgm, rfl⟩ := List.mem_map.1 hn
    refine ⟨g, hgm, rfl, ?_⟩
    rw [h3 g hgm] at hy
    rcases hg.aget g.name with ⟨h7, h8⟩ | ⟨a, b, h7, h8, _⟩
    · rw [h8] at hy; simpa using hy
    · have hm := hsub _ _ h7
      obtain ⟨f, hf, hfn⟩ := List.mem_map.1 hm
      rw [← hfn] at hx
      rw [← hfn, h1' f hf hx] at h7
      cases h7

/-- What the new constructor accepts. -/
theorem initArgs_newer (hall : ∀ p ∈ params, ∃ f ∈ (W.cls c).fields, f.name = p.1 ∧ f.init = true ∧
      ¬ ((W.cls c).kind = .attrs ∧ f.name.toList.head? = some '_')) : params'.all (fun p => isInitArg (W.cls d) p.1) = true := by
  rw [List.all_eq_true]
  intro q hq
  have : ∃ p ∈ params, p.1 = q.1 := by
    clear hall hsub
    induction hg with
    | nil => cases hq
    | cons hpq _ ih =>
      rcases List.mem_cons.1 hq with rfl | hq
      · exact ⟨_, List.mem_cons_self, hpq.1⟩
      · obtain ⟨p, hp, he⟩ := ih hq; exact ⟨p, List.mem_cons_of_mem _ hp, he⟩
  obtain ⟨p, hp, he⟩ := this
  obtain ⟨f, hf, h1, h2, h3⟩ := hall p hp
  obtain ⟨g, hgm, hng⟩ := hu.kept f hf
  rw [← he, ← h1]
  unfold isInitArg
  rw [List.any_eq_true]
  refine ⟨g, hgm, ?_⟩
  have hpv : ¬ ((W.cls d).kind = .attrs ∧ f.name.toList.head? = some '_') := by
    rintro ⟨hk, hh⟩
    by_cases hkc : (W.cls c).kind = .attrs
    · exact h3 ⟨hkc, hh⟩
    · exact hng.notPrivate hk hkc hh
  simp only [hng.name, hng.init, h2, BEq.rfl, Bool.true_and, Bool.not_eq_true', Bool.and_eq_false_iff, beq_eq_false_iff_ne, ne_eq]
  by_cases hk : (W.cls d).kind = .attrs
  · exact Or.inr (fun h => hpv ⟨hk, h⟩)
  · exact Or.inl hk

/-- The new constructor succeeds, when the new class is not a TypedDict. -/
theorem construct_instance (hk : (W.cls d).kind ≠ .typeddict) (hall : (W.cls d).kind ≠ .namedtuple → params'.all (fun p => isInitArg (W.cls d) p.1) = true)
    {fs' : List (String × Val)} (h : fillFields params' (W.cls d).fields = .ok fs') : ∃ r', construct W d params' = .ok r' ∧ InstanceOf W d fs' r' := by
  unfold construct
  dsimp only
  cases hkd : (W.cls d).kind with
  | typeddict => exact absurd hkd hk
  | namedtuple => rw [h]; exact ⟨_, rfl, Or.inl ⟨hkd, rfl⟩⟩
  | dataclass =>
    simp only [hall (by rw [hkd]; simp), if_true, h, hu.newInit]
    exact ⟨_, rfl, Or.inr ⟨by rw [hkd]; simp, hk, rfl⟩⟩
  | attrs =>
    simp only [hall (by rw [hkd]; simp), if_true, h, hu.newInit]
    exact ⟨_, rfl, Or.inr ⟨by rw [hkd]; simp, hk, rfl⟩⟩

/-- The new constructor accepts the arguments. -/
theorem construct_newer (hv : V c d) (hreq : (W.cls c).kind = .typeddict → ∀ f ∈ (W.cls c).fields, Required .typeddict f → (aget params f.name).isSome = true)
    {r : Val} (h : construct W c params = .ok r) : ∃ r', construct W d params' = .ok r' ∧ Grown W V r r' := by
  by_cases hkd : (W.cls d).kind = .typeddict
  · have hkc : (W.cls c).kind = .typeddict := by
      rcases hu.kind with h1 | h1
      · rw [← h1]; exact hkd
      · exact absurd hkd h1.1
    unfold construct at h ⊢
    dsimp only at h ⊢
    rw [hkc] at h; rw [hkd]
    cases h
    refine ⟨_, rfl, ?_⟩
    refine Grown.of_pairs ?_
    clear hsub hreq
    induction hg with
    | nil => exact .nil
    | cons hpq _ ih => exact .cons ⟨congrArg Val.str hpq.1, hpq.2⟩ ih
  · have byName : ∀ p ∈ params, ∃ f ∈ (W.cls c).fields, f.name = p.1 := by
      intro p hp
      have : ∃ x, aget params p.1 = some x := by
        clear hreq hsub h hg
        induction params with
        | nil => cases hp
        | cons q ps ih =>
          simp only [aget]
          by_cases hq : q.1 = p.1
          · exact ⟨q.2, by rw [if_pos hq]⟩
          · rw [if_neg hq]
            rcases List.mem_cons.1 hp with rfl | hp
            · exact absurd rfl hq
            · exact ih hp
      obtain ⟨x, hx⟩ := this
      obtain ⟨f, hf, he⟩ := List.mem_map.1 (hsub _ _ hx)
      exact ⟨f, hf, he⟩
    have main : ∀ fs, ((∃ e, fillFields params (W.cls c).fields = .ok e ∧ e = fs)) → ((W.cls d).kind ≠ .namedtuple → ∀ p ∈ params, ∃ f ∈ (W.cls c).fields, f.name = p.1 ∧ f.init = true ∧
      ¬ ((W.cls c).kind = .attrs ∧ f.name.toList.head? = some '_')) → InstanceOf W c fs r → ∃ r', construct W d params' = .ok r' ∧ Grown W V r r' := by
      rintro fs ⟨_, hf, rfl⟩ hall hr
      have hargs := fillFields_args _ _ hf
      obtain ⟨fs', hfs'⟩ := args_newer hu hg hsub hkd (fun f hf => by
        rcases hargs f hf with h | h | h
        · exact Or.inl h
        · exact Or.inr (Or.inl h)
        · exact Or.inr (Or.inr (Or.inl h)))
      obtain ⟨r', hc, hi⟩ := construct_instance hu hg hsub hkd (fun h => initArgs_newer hu hg hsub (hall h)) hfs'
      obtain ⟨h1, h2⟩ := fillFields_aget _ hu.oldNames.names _ hf
      obtain ⟨a1, a2, a3⟩ := fields_newer hu hg hsub (fs := _) (fun f hf x hx => by rw [← h1 f hf]; exact hx)
        (fun f hf hx => by rw [h1 f hf] at hx; exact (Option.or_eq_none_iff.1 hx).1) h2 hfs'
      exact ⟨r', hc, .obj hv hr hi a1 a2 a3⟩
    unfold construct at h
    dsimp only at h
    cases hk : (W.cls c).kind with
    | typeddict =>
      rw [hk] at h
      cases h
      obtain ⟨fs', hfs'⟩ := args_newer hu hg hsub hkd (fun f hf => by
        by_cases hr : Required (W.cls c).kind f
        · rw [hk] at hr; exact Or.inl (hreq hk f hf hr)
        · exact Or.inr (Or.inr (Or.inr hr)))
      obtain ⟨r', hc, hi⟩ := construct_instance hu hg hsub hkd (fun _ => initArgs_newer hu hg hsub (fun p hp => by
        obtain ⟨f, hf, he⟩ := byName p hp
        exact ⟨f, hf, he, hu.oldArgs (fun h => hkd (by rw [h]; exact hk)) (Or.inr hk) f hf, fun h => by rw [hk] at h; cases h.1⟩)) hfs'
      obtain ⟨a1, a2, a3⟩ := fields_newer hu hg hsub (fs := params) (fun f hf x hx => by rw [hx]; rfl) (fun f hf hx => hx)
        (fun n hn => by
          cases hx : aget params n with
          | none => rfl
          | some x => exact absurd (hsub n x hx) hn) hfs'
      exact ⟨r', hc, .typeddict hv hk hi a1 a2 a3⟩
    | namedtuple =>
      rw [hk] at h
      dsimp only at h
      cases hf : fillFields params (W.cls c).fields with
      | error e => rw [hf] at h; cases h
      | ok fs =>
        rw [hf] at h; cases h
        exact main fs ⟨fs, hf, rfl⟩ (fun hkn p hp => by
          obtain ⟨f, hf, he⟩ := byName p hp
          exact ⟨f, hf, he, hu.oldArgs (fun h => hkn (by rw [h]; exact hk)) (Or.inl hk) f hf, fun h => by rw [hk] at h; cases h.1⟩) (Or.inl ⟨hk, rfl⟩)
    | dataclass =>
      rw [hk] at h
      dsimp only at h
      by_cases ha : params.all (fun p => isInitArg (W.cls c) p.1) = true
      · rw [if_pos ha] at h
        cases hf : fillFields params (W.cls c).fields with
        | error e => rw [hf] at h; cases h
        | ok fs =>
          rw [hf] at h
          simp only [hu.oldInit] at h
          cases h
          refine main fs ⟨fs, hf, rfl⟩ (fun _ p hp => ?_) (Or.inr ⟨by rw [hk]; simp, by rw [hk]; simp, rfl⟩)
          have := List.all_eq_true.1 ha p hp
          unfold isInitArg at this
          obtain ⟨f, hf, hcond⟩ := List.any_eq_true.1 this
          simp only [Bool.and_eq_true, beq_iff_eq] at hcond
          exact ⟨f, hf, hcond.1.1, hcond.1.2, fun h => by rw [hk] at h; cases h.1⟩
      · rw [if_neg ha] at h; cases h
    | attrs =>
      rw [hk] at h
      dsimp only at h
      by_cases ha : params.all (fun p => isInitArg (W.cls c) p.1) = true
      · rw [if_pos ha] at h
        cases hf : fillFields params (W.cls c).fields with
        | error e => rw [hf] at h; cases h
        | ok fs =>
          rw [hf] at h
          simp only [hu.oldInit] at h
          cases h
          refine main fs ⟨fs, hf, rfl⟩ (fun _ p hp => ?_) (Or.inr ⟨by rw [hk]; simp, by rw [hk]; simp, rfl⟩)
          have := List.all_eq_true.1 ha p hp
          unfold isInitArg at this
          obtain ⟨f, hf, hcond⟩ := List.any_eq_true.1 this
          simp only [Bool.and_eq_true, beq_iff_eq, Bool.not_eq_true', Bool.and_eq_false_iff, beq_eq_false_iff_ne] at hcond
          refine ⟨f, hf, hcond.1.1, hcond.1.2, fun h => ?_⟩
          rcases hcond.2 with h1 | h1
          · exact h1 hk
          · rw [hcond.1.1] at h; exact h1 h.2
      · rw [if_neg ha] at h; cases h

omit hg hsub in
/-- The old constructor raises nothing but TypeErrors. -/
theorem construct_old {e : ExcClass} (h : construct W c params = .error e) : e = .type := by
  have hfill : ∀ (fl : List Field) e, fillFields params fl = .error e → e = .type := by
    intro fl
    induction fl with
    | nil => intro e h; cases h
    | cons f fl ih =>
      intro e h
      simp only [fillFields] at h
      cases hf : fillField params f with
      | error e' =>
        rw [hf] at h; cases h
        unfold fillField at hf
        cases ha : aget params f.name with
        | some x => rw [ha] at hf; cases hf
        | none =>
          rw [ha] at hf
          cases hd : f.default with
          | some d => rw [hd] at hf; cases hf
          | none =>
            rw [hd] at hf
            cases hi : f.init with
            | false => rw [hi] at hf; cases hf
            | true => rw [hi] at hf; cases hf; rfl
      | ok p =>
        rw [hf] at h
        cases hr : fillFields params fl with
        | error e' => rw [hr] at h; cases h; exact ih _ hr
        | ok ps => rw [hr] at h; cases h
  unfold construct at h
  dsimp only at h
  cases hk : (W.cls c).kind with
  | typeddict => rw [hk] at h; cases h
  | namedtuple =>
    rw [hk] at h
    dsimp only at h
    cases hf : fillFields params (W.cls c).fields with
    | error e' => rw [hf] at h; cases h; exact hfill _ _ hf
    | ok fs => rw [hf] at h; cases h
  | dataclass =>
    rw [hk] at h
    dsimp only at h
    split at h
    · cases hf : fillFields params (W.cls c).fields with
      | error e' => rw [hf] at h; cases h; exact hfill _ _ hf
      | ok fs => rw [hf] at h; simp only [hu.oldInit] at h; cases h
    · cases h; rfl
  | attrs =>
    rw [hk] at h
    dsimp only at h
    split at h
    · cases hf : fillFields params (W.cls c).fields with
      | error e' => rw [hf] at h; cases h; exact hfill _ _ hf
      | ok fs => rw [hf] at h; simp only [hu.oldInit] at h; cases h
    · cases h; rfl
end

end TL
