import Verif.Props.DumpThreads
/-!
# C66, C67: what the options hidedefault and isodates change in a dump
-/

namespace TL

variable {W : World} {C : DConfig}

/-! ## Specification -/

/-- `d` is the list of integers by which the date, time or datetime `v` is dumped without isodates. -/
inductive DateInts : Val → Val → Prop
  | date {y m d} : DateInts (.date y m d) (.list [.int y, .int m, .int d])
  | time {h mi s us} : DateInts (.time h mi s us none) (.list [.int h, .int mi, .int s, .int us])
  | datetime {y m d h mi s us} : DateInts (.datetime y m d h mi s us none) (.list [.int y, .int m, .int d, .int h, .int mi, .int s, .int us])

mutual
/-- `Variant W hid iso a b`: `a` is `b`, except that, at any depth, entries of dictionaries may have been left out (if `hid`) and the lists of integers that
stand for dates, times and datetimes may have been replaced by their ISO representation (if `iso`). -/
inductive Variant (W : World) (hid iso : Bool) : Val → Val → Prop
  | same (v) : Variant W hid iso v v
  | date {v d} : iso = true → DateInts v d → Variant W hid iso (.str (W.isoformat v)) d
  | list {xs ys} : VariantL W hid iso xs ys → Variant W hid iso (.list xs) (.list ys)
  | dict {a b} : VariantD W hid iso a b → Variant W hid iso (.dict a) (.dict b)
/-- The same for the elements of a list: none is left out. -/
inductive VariantL (W : World) (hid iso : Bool) : List Val → List Val → Prop
  | nil : VariantL W hid iso [] []
  | cons {x y xs ys} : Variant W hid iso x y → VariantL W hid iso xs ys → VariantL W hid iso (x :: xs) (y :: ys)
/-- The same for the entries of a dictionary, in their order: keys are the same. -/
inductive VariantD (W : World) (hid iso : Bool) : List (Val × Val) → List (Val × Val) → Prop
  | nil : VariantD W hid iso [] []
  | keep {k x y a b} : Variant W hid iso x y → VariantD W hid iso a b → VariantD W hid iso ((k, x) :: a) ((k, y) :: b)
  | leaveOut {p a b} : hid = true → VariantD W hid iso a b → VariantD W hid iso a (p :: b)
end

/-- No two fields of a class found inside `v` are dumped under the same name. -/
def DistinctKeys (W : World) (C : DConfig) (v : Val) : Prop :=
  ∀ c fs, Inside W v (.inst c fs) → ((W.cls c).fields.map (dumpKey C)).Nodup

/-! ## Proof -/

/-- `C2` is `C1` with hidedefault turned on (if `hid`) or isodates turned on (if `iso`). -/
structure Vary (C1 C2 : DConfig) (hid iso : Bool) : Prop where
  retuned : C1.Retuned C2
  mangle : C2.mangleKey = C1.mangleKey
  hide : C2.hidedefault = C1.hidedefault ∨ (hid = true ∧ C1.hidedefault = false)
  dates : C2.isodates = C1.isodates ∨ (iso = true ∧ C1.isodates = false)

section
variable {hid iso : Bool}

theorem Variant.hashable {a b : Val} (h : Variant W hid iso a b) (hb : W.hash b = true) : a = b := by
  cases h with
  | same => rfl
  | date _ h => cases h <;> cases hb
  | list => cases hb
  | dict => cases hb

/-- Entries paired one by one. -/
abbrev Paired (W : World) (hid iso : Bool) : List (Val × Val) → List (Val × Val) → Prop :=
  Zip2 (fun p q => p.1 = q.1 ∧ Variant W hid iso p.2 q.2)

theorem Paired.variant {a b : List (Val × Val)} (h : Paired W hid iso a b) : VariantD W hid iso a b := by
  induction h with
  | nil => exact .nil
  | @cons p q _ _ h _ ih =>
    obtain ⟨k, x⟩ := p
    obtain ⟨k', y⟩ := q
    obtain ⟨rfl, h⟩ := h
    exact .keep h ih

theorem Paired.dset {a b : List (Val × Val)} (h : Paired W hid iso a b) (k : Val) {x y : Val} (hx : Variant W hid iso x y) :
    Paired W hid iso (dset a k x) (dset b k y) := by
  induction h with
  | nil => exact .cons ⟨rfl, hx⟩ .nil
  | @cons p q _ _ h hz ih =>
    obtain ⟨k1, x1⟩ := p
    obtain ⟨k2, y1⟩ := q
    obtain ⟨h1, h2⟩ := h
    dsimp only at h1 h2
    subst h1
    unfold TL.dset
    split
    · exact .cons ⟨rfl, hx⟩ hz
    · exact .cons ⟨rfl, h2⟩ ih

theorem VariantD.append {a b : List (Val × Val)} (h : VariantD W hid iso a b) {a' b' : List (Val × Val)} (h' : VariantD W hid iso a' b') :
    VariantD W hid iso (a ++ a') (b ++ b') := by
  induction b generalizing a with
  | nil => cases h; exact h'
  | cons p b ih =>
    cases h with
    | keep h1 h2 => exact .keep h1 (ih h2)
    | leaveOut h1 h2 => exact .leaveOut h1 (ih h2)

theorem VariantD.keys {a b : List (Val × Val)} (h : VariantD W hid iso a b) : ∀ p ∈ a, ∃ q ∈ b, q.1 = p.1 := by
  induction b generalizing a with
  | nil => cases h; intro p hp; cases hp
  | cons q b ih =>
    cases h with
    | @keep k x y a _ h1 h2 =>
      intro p hp
      rcases List.mem_cons.1 hp with rfl | hp
      · exact ⟨_, List.mem_cons_self .., rfl⟩
      · obtain ⟨q, hq, e⟩ := ih h2 p hp
        exact ⟨q, List.mem_cons_of_mem _ hq, e⟩
    | leaveOut _ h2 =>
      intro p hp
      obtain ⟨q, hq, e⟩ := ih h2 p hp
      exact ⟨q, List.mem_cons_of_mem _ hq, e⟩

variable {C1 C2 : DConfig} {P : Val → Prop} {rec1 rec2 : DRec Unit}
  (hrec : ∀ v t r, P v → rec1 v t () = .ok r () → ∃ r2, rec2 v t () = .ok r2 () ∧ Variant W hid iso r2 r)
include hrec

theorem vary_list {xs ys : List Val} (hp : ∀ x ∈ xs, P x) (h : dumpList rec1 xs () = .ok ys ()) :
    ∃ zs, dumpList rec2 xs () = .ok zs () ∧ VariantL W hid iso zs ys := by
  induction xs generalizing ys with
  | nil => cases h; exact ⟨[], rfl, .nil⟩
  | cons x xs ih =>
    simp only [dumpList, R.bind_ok] at h
    obtain ⟨y, h1, ys', h2, h3⟩ := h
    cases h3
    obtain ⟨z, h4, h5⟩ := hrec _ _ _ (hp x (by simp)) h1
    obtain ⟨zs, h6, h7⟩ := ih (fun x hx => hp x (by simp [hx])) h2
    exact ⟨z :: zs, by simp only [dumpList, R.bind_ok]; exact ⟨z, h4, zs, h6, rfl⟩, .cons h5 h7⟩

theorem vary_dict {kvs : List (Val × Val)} (hp : ∀ p ∈ kvs, P p.1 ∧ P p.2) : ∀ {a b r : List (Val × Val)}, Paired W hid iso a b →
    dumpDict W rec1 kvs b () = .ok r () → ∃ r2, dumpDict W rec2 kvs a () = .ok r2 () ∧ Paired W hid iso r2 r := by
  induction kvs with
  | nil => intro a b r hab h; cases h; exact ⟨a, rfl, hab⟩
  | cons p kvs ih =>
    intro a b r hab h
    obtain ⟨k, x⟩ := p
    simp only [dumpDict, R.bind_ok] at h
    obtain ⟨k', h1, x', h2, h3⟩ := h
    have hpp := hp (k, x) (by simp)
    cases hh : W.hash k' with
    | false => rw [hh] at h3; cases h3
    | true =>
      rw [hh] at h3
      obtain ⟨k2, h4, h5⟩ := hrec _ _ _ hpp.1 h1
      obtain ⟨x2, h6, h7⟩ := hrec _ _ _ hpp.2 h2
      have := h5.hashable hh
      subst this
      obtain ⟨r2, h8, h9⟩ := ih (fun p hp' => hp p (by simp [hp'])) (hab.dset k2 h7) h3
      refine ⟨r2, ?_, h9⟩
      simp only [dumpDict, R.bind_ok]
      exact ⟨_, h4, _, h6, by rw [hh]; exact h8⟩

theorem vary_nt (hc : Vary C1 C2 hid iso) {defaults fs : List (String × Val)} (hp : ∀ p ∈ fs, P p.2) {r : List (Val × Val)}
    (h : dumpNt C1 rec1 defaults fs () = .ok r ()) : ∃ r2, dumpNt C2 rec2 defaults fs () = .ok r2 () ∧ VariantD W hid iso r2 r := by
  induction fs generalizing r with
  | nil => cases h; exact ⟨[], rfl, .nil⟩
  | cons p fs ih =>
    obtain ⟨k, x⟩ := p
    have ih := fun {r} => ih (r := r) (fun p hp' => hp p (by simp [hp']))
    unfold dumpNt at h ⊢
    cases h1 : (C1.hidedefault && isDefault defaults k x) with
    | true =>
      rw [h1, if_pos rfl] at h
      obtain ⟨r2, h2, h3⟩ := ih h
      have : (C2.hidedefault && isDefault defaults k x) = true := by
        rcases hc.hide with e | ⟨_, e⟩
        · rw [e]; exact h1
        · rw [e] at h1; cases h1
      rw [if_pos this]
      exact ⟨r2, h2, h3⟩
    | false =>
      rw [h1, if_neg (by simp), R.bind_ok] at h
      obtain ⟨y, h2, h3⟩ := h
      rw [R.bind_ok] at h3
      obtain ⟨ys, h3, h4⟩ := h3
      cases h4
      obtain ⟨z, h5, h6⟩ := hrec _ _ _ (hp (k, x) (by simp)) h2
      obtain ⟨zs, h7, h8⟩ := ih h3
      cases h9 : (C2.hidedefault && isDefault defaults k x) with
      | true =>
        rw [if_pos rfl]
        rcases hc.hide with e | ⟨e, _⟩
        · rw [e, h1] at h9; cases h9
        · exact ⟨zs, h7, .leaveOut e h8⟩
      | false =>
        rw [if_neg (by simp)]
        refine ⟨(.str k, z) :: zs, ?_, .keep h6 h8⟩
        rw [R.bind_ok]
        refine ⟨z, h5, ?_⟩
        rw [R.bind_ok]
        exact ⟨zs, h7, rfl⟩

/-- Accumulators that are paired, or are variants and the keys to come are new. -/
def AccOk (W : World) (hid iso : Bool) (keys : List String) (a b : List (Val × Val)) : Prop :=
  Paired W hid iso a b ∧ hid = false ∨ VariantD W hid iso a b ∧ keys.Nodup ∧ ∀ p ∈ b, ∃ k, p.1 = .str k ∧ k ∉ keys

omit hrec in
theorem AccOk.variant {keys : List String} {a b : List (Val × Val)} (h : AccOk W hid iso keys a b) : VariantD W hid iso a b := by
  rcases h with h | h
  · exact h.1.variant
  · exact h.1

omit hrec in
theorem AccOk.skip {k : String} {keys : List String} {a b : List (Val × Val)} (h : AccOk W hid iso (k :: keys) a b) : AccOk W hid iso keys a b := by
  rcases h with h | ⟨h1, h2, h3⟩
  · exact .inl h
  · refine .inr ⟨h1, (List.nodup_cons.1 h2).2, fun p hp => ?_⟩
    obtain ⟨k, e, hk⟩ := h3 p hp
    exact ⟨k, e, fun hm => hk (List.mem_cons_of_mem _ hm)⟩

omit hrec in
theorem AccOk.new {k : String} {keys : List String} {a b : List (Val × Val)} (h1 : VariantD W hid iso a b)
    (h3 : ∀ p ∈ b, ∃ k', p.1 = .str k' ∧ k' ∉ k :: keys) (x : Val) : dset b (.str k) x = b ++ [(.str k, x)] ∧ dset a (.str k) x = a ++ [(.str k, x)] := by
  have hb : ∀ p ∈ b, pyEq p.1 (.str k) = false := by
    intro p hp
    obtain ⟨k', e, hk⟩ := h3 p hp
    rw [e]
    cases hq : pyEq (.str k') (.str k) with
    | false => rfl
    | true => exact absurd (by simpa [pyEq] using hq) (fun e : k' = k => hk (by simp [e]))
  refine ⟨dset_new hb, dset_new (fun p hp => ?_)⟩
  obtain ⟨q, hq, e⟩ := h1.keys p hp
  rw [← e]; exact hb q hq

omit hrec in
theorem AccOk.keep {k : String} {keys : List String} {a b : List (Val × Val)} (h : AccOk W hid iso (k :: keys) a b) {x y : Val}
    (hx : Variant W hid iso x y) : AccOk W hid iso keys (dset a (.str k) x) (dset b (.str k) y) := by
  rcases h with h | ⟨h1, h2, h3⟩
  · exact .inl ⟨h.1.dset _ hx, h.2⟩
  · rw [(AccOk.new h1 h3 y).1, (AccOk.new h1 h3 x).2]
    refine .inr ⟨h1.append (.keep hx .nil), (List.nodup_cons.1 h2).2, fun p hp => ?_⟩
    rcases List.mem_append.1 hp with hp | hp
    · obtain ⟨k, e, hk⟩ := h3 p hp
      exact ⟨k, e, fun hm => hk (List.mem_cons_of_mem _ hm)⟩
    · rw [List.mem_singleton] at hp
      subst hp
      exact ⟨k, rfl, (List.nodup_cons.1 h2).1⟩

omit hrec in
theorem AccOk.leave {k : String} {keys : List String} {a b : List (Val × Val)} (h : AccOk W hid iso (k :: keys) a b) (hh : hid = true) (y : Val) :
    AccOk W hid iso keys a (dset b (.str k) y) := by
  rcases h with h | ⟨h1, h2, h3⟩
  · rw [hh] at h; cases h.2
  · rw [(AccOk.new h1 h3 y).1]
    refine .inr ⟨?_, (List.nodup_cons.1 h2).2, fun p hp => ?_⟩
    · have := h1.append (VariantD.leaveOut (p := (.str k, y)) hh .nil)
      rwa [List.append_nil] at this
    rcases List.mem_append.1 hp with hp | hp
    · obtain ⟨k, e, hk⟩ := h3 p hp
      exact ⟨k, e, fun hm => hk (List.mem_cons_of_mem _ hm)⟩
    · rw [List.mem_singleton] at hp
      subst hp
      exact ⟨k, rfl, (List.nodup_cons.1 h2).1⟩

theorem vary_fields (hc : Vary C1 C2 hid iso) {cd : ClassDef} {defaults : List (String × Val)} {hints : List (String × Ty)} {vals : List (String × Val)}
    (hp : ∀ p ∈ vals, P p.2) {fs : List String} : ∀ {a b r : List (Val × Val)}, AccOk W hid iso (fs.map (dumpName C1 cd)) a b →
    dumpFields W C1 rec1 cd defaults hints vals fs b () = .ok r () →
    ∃ r2, dumpFields W C2 rec2 cd defaults hints vals fs a () = .ok r2 () ∧ VariantD W hid iso r2 r := by
  have hname : ∀ f, dumpName C2 cd f = dumpName C1 cd f := fun f => by unfold dumpName; rw [hc.mangle]
  induction fs with
  | nil => intro a b r hab h; cases h; exact ⟨a, rfl, hab.variant⟩
  | cons f fs ih =>
    intro a b r hab h
    unfold dumpFields at h ⊢
    cases hg : aget vals f with
    | none => rw [hg] at h; cases h
    | some x =>
      rw [hg] at h
      dsimp only at h ⊢
      cases h1 : (C1.hidedefault && isDefault defaults f x) with
      | true =>
        rw [h1, if_pos rfl] at h
        have : (C2.hidedefault && isDefault defaults f x) = true := by
          rcases hc.hide with e | ⟨_, e⟩
          · rw [e]; exact h1
          · rw [e] at h1; cases h1
        rw [if_pos this]
        exact ih hab.skip h
      | false =>
        rw [h1, if_neg (by simp), R.bind_ok] at h
        obtain ⟨y, h2, h3⟩ := h
        change dumpFields W C1 rec1 cd defaults hints vals fs (dset b (.str (dumpName C1 cd f)) y) () = _ at h3
        obtain ⟨z, h5, h6⟩ := hrec _ _ _ (hp _ (aget_mem hg)) h2
        cases h9 : (C2.hidedefault && isDefault defaults f x) with
        | true =>
          rw [if_pos rfl]
          rcases hc.hide with e | ⟨e, _⟩
          · rw [e, h1] at h9; cases h9
          · exact ih (hab.leave e y) h3
        | false =>
          rw [if_neg (by simp)]
          obtain ⟨r2, h7, h8⟩ := ih (hab.keep h6) h3
          refine ⟨r2, ?_, h8⟩
          rw [R.bind_ok]
          refine ⟨z, h5, ?_⟩
          change dumpFields W C2 rec2 cd defaults hints vals fs (dset a (.str (dumpName C2 cd f)) z) () = _
          rw [hname]
          exact h7

theorem vary_attrs (hc : Vary C1 C2 hid iso) {vals : List (String × Val)}
    (hp : ∀ p ∈ vals, P p.2) {fs : List Field} : ∀ {a b r : List (Val × Val)}, AccOk W hid iso (fs.map (dumpKey C1)) a b →
    dumpAttrs C1 rec1 vals fs b () = .ok r () →
    ∃ r2, dumpAttrs C2 rec2 vals fs a () = .ok r2 () ∧ VariantD W hid iso r2 r := by
  have hname : ∀ f, dumpKey C2 f = dumpKey C1 f := fun f => by unfold dumpKey; rw [hc.mangle]
  induction fs with
  | nil => intro a b r hab h; cases h; exact ⟨a, rfl, hab.variant⟩
  | cons f fs ih =>
    intro a b r hab h
    unfold dumpAttrs at h ⊢
    cases hg : aget vals f.name with
    | none => rw [hg] at h; cases h
    | some x =>
      rw [hg] at h
      dsimp only at h ⊢
      change (if (!f.repr) = true then dumpAttrs C1 rec1 vals fs b else if (C1.hidedefault && attrIsDefault f x) = true then _ else _ : M Unit Exc _) () = _ at h
      change ∃ r2, (if (!f.repr) = true then dumpAttrs C2 rec2 vals fs a else if (C2.hidedefault && attrIsDefault f x) = true then _ else _ : M Unit Exc _) () = _ ∧ _
      cases hr : f.repr with
      | false => rw [hr] at h; exact ih hab.skip h
      | true =>
        rw [hr, if_neg (by simp)] at h
        rw [if_neg (by simp)]
        cases h1 : (C1.hidedefault && attrIsDefault f x) with
        | true =>
          rw [h1, if_pos rfl] at h
          have : (C2.hidedefault && attrIsDefault f x) = true := by
            rcases hc.hide with e | ⟨_, e⟩
            · rw [e]; exact h1
            · rw [e] at h1; cases h1
          rw [if_pos this]
          exact ih hab.skip h
        | false =>
          rw [h1, if_neg (by simp), R.bind_ok] at h
          obtain ⟨y, h2, h3⟩ := h
          change dumpAttrs C1 rec1 vals fs (dset b (.str (dumpKey C1 f)) y) () = _ at h3
          obtain ⟨z, h5, h6⟩ := hrec _ _ _ (hp _ (aget_mem hg)) h2
          cases h9 : (C2.hidedefault && attrIsDefault f x) with
          | true =>
            rw [if_pos rfl]
            rcases hc.hide with e | ⟨e, _⟩
            · rw [e, h1] at h9; cases h9
            · exact ih (hab.leave e y) h3
          | false =>
            rw [if_neg (by simp)]
            obtain ⟨r2, h7, h8⟩ := ih (hab.keep h6) h3
            refine ⟨r2, ?_, h8⟩
            rw [R.bind_ok]
            refine ⟨z, h5, ?_⟩
            change dumpAttrs C2 rec2 vals fs (dset a (.str (dumpKey C2 f)) z) () = _
            rw [hname]
            exact h7

theorem vary_step (hc : Vary C1 C2 hid iso) (hP : ∀ v x, P v → PartOf W v x → P x) (hleg : ∀ v, P v → LegalTop W v)
    (hkeys : hid = true → ∀ c fs, P (.inst c fs) → ((W.cls c).fields.map (dumpKey C1)).Nodup)
    {h : DHandler} (hcu : ∀ i, h ≠ .custom i) {v : Val} {t : Ty} {r : Val} (hv : P v)
    (hr : dstep W C1 (fun c => Pure.pure (mkDataDesc W (W.cls c))) rec1 h v t () = .ok r ()) :
    ∃ r2, dstep W C2 (fun c => Pure.pure (mkDataDesc W (W.cls c))) rec2 h v t () = .ok r2 () ∧ Variant W hid iso r2 r := by
  cases h with
  | identity => exact ⟨r, hr, .same r⟩
  | namedtuple =>
    cases v with
    | nt c fs =>
      simp only [dstep, R.bind_ok] at hr ⊢
      obtain ⟨l, h1, h2⟩ := hr
      cases h2
      obtain ⟨r2, h3, h4⟩ := vary_nt hrec hc (fun p hp => hP _ _ hv (.item (n := p.1) hp)) h1
      exact ⟨_, ⟨r2, h3, rfl⟩, .dict h4⟩
    | _ => cases hr
  | dataclass =>
    cases v with
    | inst c fs =>
      simp only [dstep, R.bind_ok] at hr ⊢
      obtain ⟨d, hd, l, h1, h2⟩ := hr
      cases hd
      cases h2
      have hacc : AccOk W hid iso ((mkDataDesc W (W.cls c)).fields.map (dumpName C1 (W.cls c))) [] [] := by
        cases hh : hid with
        | false => exact .inl ⟨.nil, rfl⟩
        | true =>
          refine .inr ⟨.nil, ?_, fun p hp => (by cases hp)⟩
          obtain ⟨_, hnames, hnd⟩ := hleg _ hv
          have hnf : ((W.cls c).fields.map (·.name)).Nodup := hnames ▸ hnd
          have : ((W.cls c).fields.map (·.name)).map (dumpName C1 (W.cls c)) = (W.cls c).fields.map (dumpKey C1) := by
            simp only [List.map_map]
            exact List.map_congr_left (fun f hf => dumpName_eq hnf hf)
          refine ((W.setOrder_perm _).map (dumpName C1 (W.cls c))).nodup_iff.2 ?_
          rw [this]
          exact hkeys hh c fs hv
      obtain ⟨r2, h3, h4⟩ := vary_fields hrec hc (fun p hp => hP _ _ hv (.attr (n := p.1) hp)) hacc h1
      exact ⟨_, ⟨_, rfl, r2, h3, rfl⟩, .dict h4⟩
    | _ => cases hr
  | iterator =>
    simp only [dstep, iteratordump] at hr ⊢
    have hb : C2.isBasic (iterItemTy t) = C1.isBasic (iterItemTy t) := by
      unfold DConfig.isBasic; rw [hc.retuned.basictypes]
    rw [hb, hc.retuned.handlers]
    split at hr
    · rename_i h1; rw [if_pos h1]; exact ⟨r, hr, .same r⟩
    · rename_i h1
      rw [if_neg h1]
      rw [R.bind_ok] at hr
      obtain ⟨ys, h2, h3⟩ := hr
      cases h3
      obtain ⟨zs, h4, h5⟩ := vary_list hrec (fun x hx => by
        cases v with
        | seq k xs => exact hP _ _ hv (.elem hx)
        | nt c fs =>
          obtain ⟨p, hp, rfl⟩ := List.mem_map.1 hx
          exact hP _ _ hv (.item (n := p.1) hp)
        | _ => cases hx) h2
      exact ⟨_, (by rw [R.bind_ok]; exact ⟨zs, h4, rfl⟩), .list h5⟩
  | enum =>
    cases v with
    | enumv e n =>
      simp only [dstep] at hr ⊢
      cases hm : aget (W.enm e).members n with
      | none => rw [hm] at hr; cases hr
      | some x => rw [hm] at hr; exact hrec _ _ _ (hP _ _ hv (.member hm)) hr
    | _ => cases hr
  | dict =>
    cases v with
    | dict kvs =>
      simp only [dstep, R.bind_ok] at hr ⊢
      obtain ⟨l, h1, h2⟩ := hr
      cases h2
      obtain ⟨r2, h3, h4⟩ := vary_dict hrec (fun p hp => ⟨hP _ _ hv (.key (x := p.2) hp), hP _ _ hv (.val (k := p.1) hp)⟩) .nil h1
      exact ⟨_, ⟨r2, h3, rfl⟩, .dict h4.variant⟩
    | _ => cases hr
  | attrs =>
    cases v with
    | inst c fs =>
      simp only [dstep, R.bind_ok] at hr ⊢
      obtain ⟨l, h1, h2⟩ := hr
      cases h2
      have hacc : AccOk W hid iso ((W.cls c).fields.map (dumpKey C1)) [] [] := by
        cases hh : hid with
        | false => exact .inl ⟨.nil, rfl⟩
        | true => exact .inr ⟨.nil, hkeys hh c fs hv, fun p hp => (by cases hp)⟩
      obtain ⟨r2, h3, h4⟩ := vary_attrs hrec hc (fun p hp => hP _ _ hv (.attr (n := p.1) hp)) hacc h1
      exact ⟨_, ⟨r2, h3, rfl⟩, .dict h4⟩
    | _ => cases hr
  | date =>
    change datetimedump W C1 v () = _ at hr
    change ∃ r2, datetimedump W C2 v () = _ ∧ _
    unfold datetimedump at hr ⊢
    rcases hc.dates with e | ⟨e, e'⟩
    · rw [e]; exact ⟨r, hr, .same r⟩
    · rw [e', if_neg (by simp)] at hr
      cases h2 : C2.isodates with
      | false => exact ⟨r, hr, .same r⟩
      | true =>
        refine ⟨_, rfl, .date e ?_⟩
        cases v with
        | date y m d => cases hr; exact .date
        | time h mi s us tz => cases tz with
          | none => cases hr; exact .time
          | some z => cases hr
        | datetime y m d h mi s us tz => cases tz with
          | none => cases hr; exact .datetime
          | some z => cases hr
        | _ => cases hr
  | timedelta => exact ⟨r, hr, .same r⟩
  | pattern => exact ⟨r, hr, .same r⟩
  | str => exact ⟨r, hr, .same r⟩
  | custom i => exact absurd rfl (hcu i)
end

theorem vary_dump {hid iso : Bool} {C1 C2 : DConfig} (hc : Vary C1 C2 hid iso) (hd : C1.Default) (n : Nat) : ∀ v t r, Legal W v →
    (hid = true → DistinctKeys W C1 v) → Ref.dump W C1 n v t () = .ok r () → ∃ r2, Ref.dump W C2 n v t () = .ok r2 () ∧ Variant W hid iso r2 r := by
  induction n with
  | zero => intro v t r _ _ h; cases h
  | succ n ih =>
    intro v t r hv hk h
    unfold Ref.dump at h ⊢
    rw [hc.retuned.pick]
    cases hp : dPick W C1 v with
    | error e => rw [hp] at h; cases h
    | ok f =>
      rw [hp] at h
      refine vary_step (P := fun v => Legal W v ∧ (hid = true → DistinctKeys W C1 v)) (fun v t r hv h => ih v t r hv.1 hv.2 h) hc
        (fun v x hv hx => ⟨hv.1.inside hx.inside, fun e c fs hi => hv.2 e c fs (hi.trans hx.inside)⟩) (fun v hv => hv.1.top)
        (fun e c fs hv => hv.2 e c fs .self) (fun i e => ?_) ⟨hv, hk⟩ h
      subst e
      obtain ⟨p, hm, hpe⟩ := dPick_mem hp
      rw [hd] at hm
      simp only [defaultDHandlers, List.mem_cons, List.not_mem_nil, or_false] at hm
      rcases hm with rfl | rfl | rfl | rfl | rfl | rfl | rfl | rfl | rfl | rfl | rfl <;> cases hpe

/-! ## Theorems -/

/-- **C66** If a value can be dumped with hidedefault=False, it can be dumped with hidedefault=True, and the second dump is the first one with entries of
dictionaries left out: no entry is added, renamed or reordered, nothing else is changed, at any depth. -/
theorem C66_leaves_out (hd : C.Default) {s : DState} (hs : DReachable W C s) {v : Val} (hv : Legal W v) (hk : DistinctKeys W C v) {t : Ty} {full : Val}
    {s1 : DState} (h : Dumps W { C with hidedefault := false } s v t full s1) :
    ∃ r s2, Dumps W { C with hidedefault := true } s v t r s2 ∧ Variant W true false r full := by
  have h1 : C.Retuned { C with hidedefault := false } := ⟨rfl, rfl, rfl, rfl⟩
  have h2 : C.Retuned { C with hidedefault := true } := ⟨rfl, rfl, rfl, rfl⟩
  obtain ⟨n, h⟩ := (dumps_ref (C := { C with hidedefault := false }) hd (hs.retune h1) hv t full).1 ⟨s1, h⟩
  obtain ⟨r, h3, h4⟩ := vary_dump (hid := true) (iso := false) (C1 := { C with hidedefault := false }) (C2 := { C with hidedefault := true }) ⟨⟨rfl, rfl, rfl, rfl⟩, rfl, .inr ⟨rfl, rfl⟩, .inl rfl⟩ hd n v t full hv (fun _ => hk) h
  obtain ⟨s2, h5⟩ := (dumps_ref (C := { C with hidedefault := true }) hd (hs.retune h2) hv t r).2 ⟨n, h3⟩
  exact ⟨r, s2, h5, h4⟩

/-- **C67** If a value can be dumped with isodates=False, it can be dumped with isodates=True, and the dumps are the same except that the lists of integers that
stand for dates, times and datetimes are replaced by their ISO representation. -/
theorem C67_only_dates (hd : C.Default) {s : DState} (hs : DReachable W C s) {v : Val} (hv : Legal W v) {t : Ty} {r : Val}
    {s1 : DState} (h : Dumps W { C with isodates := false } s v t r s1) :
    ∃ r2 s2, Dumps W { C with isodates := true } s v t r2 s2 ∧ Variant W false true r2 r := by
  have h1 : C.Retuned { C with isodates := false } := ⟨rfl, rfl, rfl, rfl⟩
  have h2 : C.Retuned { C with isodates := true } := ⟨rfl, rfl, rfl, rfl⟩
  obtain ⟨n, h⟩ := (dumps_ref (C := { C with isodates := false }) hd (hs.retune h1) hv t r).1 ⟨s1, h⟩
  obtain ⟨r2, h3, h4⟩ := vary_dump (hid := false) (iso := true) (C1 := { C with isodates := false }) (C2 := { C with isodates := true }) ⟨⟨rfl, rfl, rfl, rfl⟩, rfl, .inl rfl, .inr ⟨rfl, rfl⟩⟩ hd n v t r hv (fun e => (by cases e)) h
  obtain ⟨s2, h5⟩ := (dumps_ref (C := { C with isodates := true }) hd (hs.retune h2) hv t r2).2 ⟨n, h3⟩
  exact ⟨r2, s2, h5, h4⟩

/-! ## Examples -/

namespace Sample
/-- `[P(x=1, z='q', y=5), date(2020, 2, 29)]` -/
def l1 : Val := .list [p0, .date 2020 2 29]

theorem l1_legal : Legal Sample.W l1 := by
  refine .of_parts (fun h => (by cases h)) (fun x hx => ?_)
  cases hx with
  | elem h =>
    simp only [List.mem_cons, List.not_mem_nil, or_false] at h
    rcases h with rfl | rfl
    · exact p0_legal
    · exact .of_parts (by show validDate _ _ _ = true; decide) (fun x hx => (by cases hx))

theorem l1_keys : DistinctKeys Sample.W Sample.D l1 := by
  intro c fs hi
  have : ∀ x, Inside Sample.W l1 x → ∀ c fs, x = .inst c fs → c = 0 := by
    intro x hx c fs e
    subst e
    rcases hx.head with h | ⟨p, h1, h2⟩
    · cases h
    · cases h1 with
      | elem h =>
        simp only [List.mem_cons, List.not_mem_nil, or_false] at h
        rcases h with rfl | rfl
        · rcases h2.head with h | ⟨p, h3, h4⟩
          · cases h; rfl
          · cases h3 with
            | attr h =>
              simp only [List.mem_cons, Prod.mk.injEq, List.not_mem_nil, or_false] at h
              rcases h with ⟨_, rfl⟩ | ⟨_, rfl⟩ | ⟨_, rfl⟩ <;> rcases h4.head with h5 | ⟨p, h5, _⟩ <;> cases h5
        · rcases h2.head with h | ⟨p, h3, _⟩
          · cases h
          · cases h3
  obtain rfl := this _ hi c fs rfl
  decide
end Sample

-- C66: `y=5` is the default, and is left out with hidedefault
example : Sample.D.Default ∧ Legal Sample.W Sample.l1 ∧ DistinctKeys Sample.W Sample.D Sample.l1 ∧
    (∃ s', Dumps Sample.W { Sample.D with hidedefault := false } {} Sample.l1 .any
      (.list [.dict [(.str "x", .int 1), (.str "zed", .str "q"), (.str "y", .int 5)], .list [.int 2020, .int 2, .int 29]]) s') ∧
    (∃ s', Dumps Sample.W { Sample.D with hidedefault := true } {} Sample.l1 .any
      (.list [.dict [(.str "x", .int 1), (.str "zed", .str "q")], .list [.int 2020, .int 2, .int 29]]) s') :=
  ⟨rfl, Sample.l1_legal, Sample.l1_keys, ⟨_, 5, rfl⟩, ⟨_, 5, rfl⟩⟩

-- C67: the date becomes a string, the rest remains
example : (∃ s', Dumps Sample.W { Sample.D with isodates := false } {} Sample.l1 .any
      (.list [.dict [(.str "x", .int 1), (.str "zed", .str "q")], .list [.int 2020, .int 2, .int 29]]) s') ∧
    (∃ s', Dumps Sample.W { Sample.D with isodates := true } {} Sample.l1 .any
      (.list [.dict [(.str "x", .int 1), (.str "zed", .str "q")], .str (Sample.W.isoformat (.date 2020 2 29))]) s') :=
  ⟨⟨_, 5, rfl⟩, ⟨_, 5, rfl⟩⟩

/-- **C66** needs distinct names: when a field is dumped under the name of an earlier one, hiding it uncovers the other. -/
theorem C66_collision_counterexample : ∃ (W : World) (v full r : Val) (s1 s2 : DState), Legal W v ∧
    Dumps W { hidedefault := false } {} v .any full s1 ∧ Dumps W { hidedefault := true } {} v .any r s2 ∧ ¬ Variant W true false r full := by
  refine ⟨{ Sample.W with cls := fun _ => { kind := .dataclass, name := "K", fields :=
    [{ name := "a", ty := .any, metadata := [("name", "x")] }, { name := "b", ty := .any, metadata := [("name", "x")], default := some (.int 1) }] } },
    .inst 0 [("a", .int 7), ("b", .int 1)], .dict [(.str "x", .int 1)], .dict [(.str "x", .int 7)], _, _, ?_, ⟨5, rfl⟩, ⟨5, rfl⟩, fun h => ?_⟩
  · refine .of_parts ⟨Or.inl rfl, rfl, by simp⟩ (fun x hx => ?_)
    cases hx with
    | attr h =>
      simp only [List.mem_cons, Prod.mk.injEq, List.not_mem_nil, or_false] at h
      rcases h with ⟨_, rfl⟩ | ⟨_, rfl⟩ <;> exact DumpPrim.legal_basic (p := .int) rfl
  · cases h with
    | dict h => cases h with
      | keep h _ => cases h
      | leaveOut _ h => cases h

end TL
