import Verif.Lemmas.Completeness
/-!
# Unambiguous annotations: data has at most one conversion
-/

namespace TL

variable {W : World} {C : Config} {F : String → Ty → Prop}

theorem EnumFirst.unique {e : Nat} {v m m' : Val} (h : EnumFirst W e v m) (h' : EnumFirst W e v m') : m = m' := by
  have h1 := h.call
  rw [h'.call] at h1
  cases h1; rfl

theorem Built.unique {c : Nat} {fs : List (String × Val)} {r r' : Val} (h : Built W c fs r) (h' : Built W c fs r') : r = r' := by
  unfold Built at h h'
  cases hk : (W.cls c).kind <;> rw [hk] at h h' <;> dsimp only at h h'
  · exact h.trans h'.symm
  · obtain ⟨a, h1, rfl⟩ := h; obtain ⟨b, h2, rfl⟩ := h'; rw [h1] at h2; cases h2; rfl
  · obtain ⟨a, h1, rfl⟩ := h; obtain ⟨b, h2, rfl⟩ := h'; rw [h1] at h2; cases h2; rfl

theorem SecondsOf.unique {v r r' : Val} (h : SecondsOf W v r) (h' : SecondsOf W v r') : r = r' := by
  rcases h with ⟨n, rfl, _, _, rfl⟩ | ⟨b, rfl, rfl⟩ | ⟨f, us, rfl, h, rfl⟩ <;>
    rcases h' with ⟨n', h1, _, _, rfl⟩ | ⟨b', h1, rfl⟩ | ⟨f', us', h1, h2, rfl⟩ <;> cases h1
  · rfl
  · rfl
  · rw [h] at h2; cases h2; rfl

theorem PatternOf.unique {v r r' : Val} (h : PatternOf W v r) (h' : PatternOf W v r') : r = r' := by
  rcases h with ⟨h1, _, rfl⟩ | ⟨⟨x, rfl⟩, rfl⟩ <;> rcases h' with ⟨h2, _, rfl⟩ | ⟨⟨y, h2⟩, h3⟩
  · rfl
  · subst h2; rcases h1 with ⟨_, h⟩ | ⟨_, h⟩ <;> cases h
  · rcases h2 with ⟨_, h⟩ | ⟨_, h⟩ <;> cases h
  · exact h3.symm

theorem DateOf.loads (hd : C.Default) {k : DtKind} {v r : Val} (h : DateOf W k v r) : ∃ s', Loads W C (fresh []) v (.dt k) r s' := by
  rcases h with ⟨x, rfl, h⟩ | ⟨hv, xs, is, n, h1, h2, h3⟩
  · exact (loads_dt hd.usual (.new _ _) _ _).2 h
  · cases k with
    | date =>
      obtain ⟨_, y, m, d, rfl, h4, h5⟩ := h3
      exact (C33_date hd.usual (.new _ _) v r hv).2 ⟨xs, y, m, d, h1, h2, h4, h5⟩
    | time =>
      obtain ⟨hh, mi, sec, us, h4, h5, h6⟩ := h3
      exact (C33_time hd.usual (.new _ _) v r hv).2 ⟨xs, is, hh, mi, sec, us, n, h1, h2, h4, h5, h6⟩
    | datetime =>
      obtain ⟨y, m, d, hh, mi, sec, us, h3, h4, h5, h6, h7⟩ := h3
      exact (C33_datetime hd.usual (.new _ _) v r hv).2 ⟨xs, is, y, m, d, hh, mi, sec, us, n, h1, h2, h3, h4, h5, h6, h7⟩

theorem DateOf.unique {k : DtKind} {v r r' : Val} (h : DateOf W k v r) (h' : DateOf W k v r') : r = r' := by
  obtain ⟨s1, h1⟩ := DateOf.loads (C := {}) rfl h
  obtain ⟨s2, h2⟩ := DateOf.loads (C := {}) rfl h'
  exact (h1.unique h2).1

theorem pairs_unique {α β : Type} {Q : α → β → Prop} : ∀ {l l' : List (α × β)}, l.map (·.1) = l'.map (·.1) →
    (∀ q ∈ l, ∀ b, Q q.1 b → q.2 = b) → (∀ q ∈ l', Q q.1 q.2) → l = l'
  | [], [], _, _, _ => rfl
  | [], _ :: _, h, _, _ => by cases h
  | _ :: _, [], h, _, _ => by cases h
  | (f, o) :: l, (f', o') :: l', h, h1, h2 => by
    simp only [List.map_cons, List.cons.injEq] at h
    obtain ⟨h3, h4⟩ := h
    subst h3
    have h5 := h1 (f, o) (by simp) o' (h2 (f, o') (by simp))
    dsimp only at h5
    have := pairs_unique h4 (fun q hq => h1 q (by simp [hq])) (fun q hq => h2 q (by simp [hq]))
    rw [h5, this]

theorem means_unique {Γ : Env} {n : String} {u u' : Ty} (h : Means Γ n u) (h' : Means Γ n u') : u = u' := by
  obtain ⟨f, rfl, h⟩ := h
  obtain ⟨g, hg, h'⟩ := h'
  cases hg
  rw [h] at h'; cases h'; rfl

theorem means_meets {s : LState} {t : Ty} {n : String} {u : Ty} (h : Means (namesIn W s t) n u) : Meets W C s t u := by
  obtain ⟨f, h1, h2⟩ := h
  unfold namesIn at h1
  split at h1
  · cases h1
  · rename_i fr hfr
    cases h1
    dsimp only at h2
    cases ha : aget fr n with
    | some w => rw [ha] at h2; cases h2; exact .known ⟨fr, hfr, ha⟩
    | none =>
      rw [ha] at h2; dsimp only at h2
      split at h2
      · cases h2; exact .self
      · cases h2

/-- A value of a subclass of int is a bool. -/
theorem kept_exact {v0 v : Val} {p : Prim} (hv : Within v0 v) (hb : Ty.prim p = .prim .int → ∀ b, ¬ Within v0 (.bool b)) (hi : isInst p v = true)
    (hne : typeOf v ≠ .prim p) : False := by
  have key : p = .int ∧ ∃ b, v = .bool b := by
    cases v <;> cases p <;> simp_all [isInst, typeOf]
  obtain ⟨rfl, b, rfl⟩ := key
  exact hb rfl b hv

theorem Converts.unique {s : LState} {v0 : Val} {t0 : Ty} (hk : KeysDistinct C v0)
    (hw : ∀ c, Meets W C s t0 (.obj c) → WFNames C (W.cls c).kind (W.cls c).fields) (hu : Unambiguous W C s v0 t0)
    {v : Val} {t : Ty} {a : Val} (ha : Converts W C (Means (namesIn W s t0)) v t a) : Meets W C s t0 t → Within v0 v → ∀ b,
      Converts W C (Means (namesIn W s t0)) v t b → a = b := by
  refine Converts.rec (W := W) (C := C) (F := Means (namesIn W s t0))
    (motive_1 := fun v t a _ => Meets W C s t0 t → Within v0 v → ∀ b, Converts W C (Means (namesIn W s t0)) v t b → a = b)
    (motive_2 := fun v t a _ => Meets W C s t0 t → Within v0 v → ∀ b, ConvertsItem W C (Means (namesIn W s t0)) v t b → a = b)
    (motive_3 := fun v t a _ => Meets W C s t0 t → Within v0 v → (t = .prim .int → ∀ b, ¬ Within v0 (.bool b)) → ∀ b,
      ConvertsElem W C (Means (namesIn W s t0)) v t b → a = b)
    (motive_4 := fun c kvs f a _ => Meets W C s t0 (.obj c) → f ∈ (W.cls c).fields → ∀ v, Within v0 v → DictData C v kvs → (strKeys kvs).Nodup →
      ∀ b, FieldConv W C (Means (namesIn W s t0)) c kvs f b → a = b)
    ?_ ?_ ?_ ?_ ?_ ?_ ?_ ?_ ?_ ?_ ?_ ?_ ?_ ?_ ?_ ?_ ?_ ?_ ?_ ?_ ?_ ?_ ?_ ?_ ?_ ?_ ha
  · intro p v hb ht _ _ b h -- exact
    cases h with
    | exact => rfl
    | cast _ _ _ hne => exact absurd ht hne
  · intro p v r _ _ _ hne hc _ _ b h -- cast
    cases h with
    | exact _ ht => exact absurd ht hne
    | cast _ _ _ _ hc' => rw [hc] at hc'; cases hc'; rfl
  · intro v _ _ b h; cases h; rfl -- any
  · intro vs l v _ _ _ _ b h; cases h; rfl -- lit
  · intro e v m hm _ _ b h -- enum
    cases h with
    | enum hm' => exact hm.unique hm'
    | hint hno => exact absurd hm (hno _)
  · intro e v u x m hno hmem hc hm _ hg hv b h -- hint
    cases h with
    | enum hm' => exact absurd hm' (hno _)
    | hint _ hmem' hc' hm' => exact hu.hints _ _ _ _ _ _ _ _ hg hv hmem hmem' hc hc' hm hm'
  · intro k v r h1 _ _ b h; cases h with | dt h2 => exact h1.unique h2
  · intro v r h1 _ _ b h; cases h with | timedelta h2 => exact h1.unique h2
  · intro a v r h1 _ _ b h; cases h with | pattern h2 => exact h1.unique h2
  · intro c v r _ h1 _ _ b h; cases h with | strcons _ h2 => rw [h1] at h2; cases h2; rfl
  · intro k t v l hs _ hi hel ih hg hv b h -- coll
    cases h with
    | coll _ _ hi' hel' =>
      have hm := hi.symm.trans hi'
      simp only [Option.some.injEq] at hm
      rw [pairs_unique (Q := fun x y => ConvertsItem W C (Means (namesIn W s t0)) x t y) hm
        (fun q hq b hb => ih q hq (.coll hg) (.elem hv hi (List.mem_map.2 ⟨q, hq, rfl⟩)) b hb) hel']
    | set hs' => rw [hs] at hs'; cases hs'
  · intro k t v l hs _ hi hel _ ih hg hv b h -- set
    cases h with
    | coll hs' => rw [hs] at hs'; cases hs'
    | set _ _ hi' hel' =>
      have hm := hi.symm.trans hi'
      simp only [Option.some.injEq] at hm
      rw [pairs_unique (Q := fun x y => ConvertsItem W C (Means (namesIn W s t0)) x t y) hm
        (fun q hq b hb => ih q hq (.coll hg) (.elem hv hi (List.mem_map.2 ⟨q, hq, rfl⟩)) b hb) hel']
  · intro v l rest _ hi _ hel ih hg hv b h -- tuple
    generalize hts : l.map (·.2.1) = ts at h
    cases h with
    | @tuple _ l' rest' _ hi' _ hel' =>
      have hm := hi.symm.trans hi'
      simp only [Option.some.injEq] at hm
      have hlen : l.length = l'.length := by have := congrArg List.length hts; simpa using this
      have hm1 : l.map (·.1) = l'.map (·.1) := (List.append_inj hm (by simpa using hlen)).1
      have : l.map (fun q => ((q.1, q.2.1), q.2.2)) = l'.map (fun q => ((q.1, q.2.1), q.2.2)) := by
        refine pairs_unique (Q := fun p y => Converts W C (Means (namesIn W s t0)) p.1 p.2 y) ?_ ?_ ?_
        · rw [List.map_map, List.map_map]
          have hz : List.zip (l.map (·.1)) (l.map (·.2.1)) = List.zip (l'.map (·.1)) (l'.map (·.2.1)) := by rw [hm1, hts]
          rw [List.zip_map', List.zip_map'] at hz
          exact hz
        · intro q hq b hb
          obtain ⟨p, hp, rfl⟩ := List.mem_map.1 hq
          exact ih p hp (.tuple hg (List.mem_map.2 ⟨p, hp, rfl⟩))
            (.elem hv hi (List.mem_append_left _ (List.mem_map.2 ⟨p, hp, rfl⟩))) b hb
        · intro q hq
          obtain ⟨p, hp, rfl⟩ := List.mem_map.1 hq
          exact hel' p hp
      have h2 := congrArg (List.map (·.2)) this
      simp only [List.map_map, Function.comp_def] at h2
      rw [h2]
  · intro kt vt v l hdata hkc hvc _ ihk ihv hg hv b h -- dict
    cases h with
    | @dict _ _ _ l' hdata' hkc' hvc' _ =>
      have hm := hdata.unique hdata'
      rw [pairs_unique (Q := fun p y => ConvertsElem W C (Means (namesIn W s t0)) p.1 kt y.1 ∧ ConvertsElem W C (Means (namesIn W s t0)) p.2 vt y.2) hm
        (fun q hq b hb => Prod.ext
          (ihk q hq (.dictKey hg) (hv.trans (hdata.within (List.mem_map.2 ⟨q, hq, rfl⟩)).1)
            (fun he b => hu.bools (Or.inl ⟨_, by rw [he] at hg; exact hg⟩) b) _ hb.1)
          (ihv q hq (.dictVal hg) (hv.trans (hdata.within (List.mem_map.2 ⟨q, hq, rfl⟩)).2)
            (fun he b => hu.bools (Or.inr ⟨_, by rw [he] at hg; exact hg⟩) b) _ hb.2))
        (fun q hq => ⟨hkc' q hq, hvc' q hq⟩)]
  · intro ts u v r hm he hc ih hg hv b h -- union
    cases h with
    | @union _ u' _ _ hm' he' hc' =>
      by_cases hex : ExactBasic C v ts
      · have h1 := he hex
        have h2 := he' hex
        rw [h2, ← h1] at hc'
        exact ih (.union hg hm) hv _ hc'
      · have := hu.unions _ _ _ _ _ _ hg hv hm hm' hex hc hc'
        rw [← this] at hc'
        exact ih (.union hg hm) hv _ hc'
  · intro n u v r hf hc ih hg hv b h -- fref
    cases h with
    | fref hf' hc' =>
      have := means_unique hf hf'
      rw [← this] at hc'
      exact ih (means_meets hf) hv _ hc'
  · intro n u v r hc ih hg hv b h -- newtype
    cases h with
    | newtype hc' => exact ih (.newtype hg) hv _ hc'
  · intro c v kvs l hkd hdata _ hl hfs hc _ ih hg hv b h -- typeddict
    cases h with
    | @typeddict _ _ kvs' l' _ hdata' _ hl' hfs' hc' _ =>
      have := hdata.unique hdata'; subst this
      have hm := hl.symm.trans hl'
      have hfld : ∀ q ∈ l, Meets W C s t0 q.1.ty := fun q hq => .field hg (hfs q hq) (.declared (fun h => by rw [hkd] at h; cases h))
      have hin : ∀ q ∈ l, Within v0 q.2.1 := by
        intro q hq
        have : (Val.str q.1.name, q.2.1) ∈ l.map (fun q => (Val.str q.1.name, q.2.1)) := List.mem_map.2 ⟨q, hq, rfl⟩
        rw [← hl] at this
        exact hv.trans (hdata.within (List.mem_filter.1 this).1).2
      have : l.map (fun q => ((Val.str q.1.name, q.2.1), q.2.2)) = l'.map (fun q => ((Val.str q.1.name, q.2.1), q.2.2)) := by
        refine pairs_unique (Q := fun p y => ∃ f ∈ (W.cls c).fields, .str f.name = p.1 ∧ Converts W C (Means (namesIn W s t0)) p.2 f.ty y) ?_ ?_ ?_
        · simpa [List.map_map, Function.comp_def] using hm
        · intro q hq b hb
          obtain ⟨p, hp, rfl⟩ := List.mem_map.1 hq
          obtain ⟨f, hf, h1, h2⟩ := hb
          simp only [Val.str.injEq] at h1
          have := nodup_map_inj (hw c hg).names hf (hfs p hp) h1
          rw [this] at h2
          exact ih p hp (hfld p hp) (hin p hp) _ h2
        · intro q hq
          obtain ⟨p, hp, rfl⟩ := List.mem_map.1 hq
          exact ⟨p.1, hfs' p hp, rfl, hc' p hp⟩
      have h2 := congrArg (List.map (fun q : (Val × Val) × Val => (q.1.1, q.2))) this
      simp only [List.map_map, Function.comp_def] at h2
      rw [h2]
    | obj hkd' => exact absurd hkd hkd'
  · intro c v kvs r l hkd hdata _ hl hfs hb ih hg hv b h -- obj
    cases h with
    | typeddict hkd' => exact absurd hkd' hkd
    | @obj _ _ kvs' _ l' _ hdata' _ hl' hfs' hb' =>
      have := hdata.unique hdata'; subst this
      have hn := hk _ kvs hv hdata
      have : l = l' := pairs_unique (Q := FieldConv W C (Means (namesIn W s t0)) c kvs) (hl.symm.trans hl') (fun q hq b hb =>
        ih q hq hg (by rw [hl]; exact List.mem_map.2 ⟨q, hq, rfl⟩) v hv hdata hn b hb) hfs'
      subst this
      exact hb.unique hb'
  · intro v t r hn hc ih hg hv b h -- item
    cases h with
    | conv _ hc' => exact ih hg hv _ hc'
    | keep hb => exact absurd hb hn
  · intro t v hb _ _ b h
    cases h with
    | conv hn _ => exact absurd hb hn
    | keep => rfl
  · intro v t r hc ih hg hv hb b h -- elem
    cases h with
    | conv hc' => exact ih hg hv _ hc'
    | keep hp hi =>
      cases hc with
      | exact => rfl
      | cast _ _ _ hne => exact (kept_exact hv hb hi hne).elim
  · intro p v hp hi hg hv hb b h
    cases h with
    | conv hc' =>
      cases hc' with
      | exact => rfl
      | cast _ _ _ hne => exact (kept_exact hv hb hi hne).elim
    | keep => rfl
  · intro c kvs f x t y _ hx ht hc ih hg hf v hv hdata hn b h' -- field
    cases h' with
    | loaded _ hx' ht' hc' =>
      have h1 := dget_of_mem_str hn hx
      rw [dget_of_mem_str hn hx'] at h1
      simp only [Option.some.injEq] at h1
      rw [h1, ← ht.unique ht'] at hc'
      rw [ih (.field hg hf ht) (hv.trans (hdata.within hx).2) _ hc']
    | default hne => exact absurd (mem_strKeys.2 ⟨_, hx⟩) hne
    | unset _ hne => exact absurd (mem_strKeys.2 ⟨_, hx⟩) hne
  · intro c kvs f d hne hdf _ _ v _ _ _ b h'
    cases h' with
    | loaded _ hx' => exact absurd (mem_strKeys.2 ⟨_, hx'⟩) hne
    | default _ hdf' => rw [hdf] at hdf'; exact hdf'
    | unset _ _ hdf' => rw [hdf] at hdf'; cases hdf'
  · intro c kvs f _ hne hdf _ _ _ v _ _ _ b h'
    cases h' with
    | loaded _ hx' => exact absurd (mem_strKeys.2 ⟨_, hx'⟩) hne
    | default _ hdf' => rw [hdf] at hdf'; cases hdf'
    | unset => rfl

section
variable {s : LState} {v0 : Val} {t0 : Ty} (hk : KeysDistinct C v0) (hr : Regular W C s v0 t0) (hu : Unambiguous W C s v0 t0)
include hk hr hu

theorem ConvertsItem.unique {v : Val} {t : Ty} {a b : Val} (ha : ConvertsItem W C (Means (namesIn W s t0)) v t a) (hg : Meets W C s t0 t)
    (hv : Within v0 v) (hb : ConvertsItem W C (Means (namesIn W s t0)) v t b) : a = b := by
  cases ha with
  | conv hn hc =>
    cases hb with
    | conv _ hc' => exact hc.unique hk hr.classes hu hg hv _ hc'
    | keep hb => exact absurd hb hn
  | keep hk' =>
    cases hb with
    | conv hn _ => exact absurd hk' hn
    | keep => rfl

theorem ConvertsElem.unique {v : Val} {t : Ty} {a b : Val} (ha : ConvertsElem W C (Means (namesIn W s t0)) v t a) (hg : Meets W C s t0 t)
    (hv : Within v0 v) (hint : t = .prim .int → ∀ b, ¬ Within v0 (.bool b)) (hb : ConvertsElem W C (Means (namesIn W s t0)) v t b) : a = b := by
  cases ha with
  | conv hc =>
    cases hb with
    | conv hc' => exact hc.unique hk hr.classes hu hg hv _ hc'
    | keep hp hi =>
      cases hc with
      | exact => rfl
      | cast _ _ _ hne => exact (kept_exact hv hint hi hne).elim
  | keep hp hi =>
    cases hb with
    | conv hc' =>
      cases hc' with
      | exact => rfl
      | cast _ _ _ hne => exact (kept_exact hv hint hi hne).elim
    | keep => rfl

theorem Unambiguous.consistent : Consistent W C s v0 t0 where
  toRegular := hr
  sets k u hg _ x a b hx ha hb := by rw [ConvertsItem.unique hk hr hu ha (.coll hg) hx hb]
  keys kt vt hg x a b hx ha hb := by
    rw [ConvertsElem.unique hk hr hu ha (.dictKey hg) hx (fun he b => hu.bools (Or.inl ⟨_, by rw [he] at hg; exact hg⟩) b) hb]
  enums e u hg hmem x a b m hx ha hb hm := by
    rw [← ha.unique hk hr.classes hu (.enum hg hmem) hx _ hb]; exact ⟨m, hm⟩
  inits c hg := Or.inr (fun f hf u ht x a b hx ha hb => ha.unique hk hr.classes hu (.field hg hf ht) hx _ hb)
end

end TL
