import Verif.Props.DumpLeaves
/-!
# C51, C52: which values are dumped, and how dumping fails
-/

namespace TL

variable {W : World} {D : DConfig}

/-- No default handler deals with values of this class. -/
def Undumpable (D : DConfig) : Val → Prop
  | .ns _ => True
  | .opaque _ _ => True
  | .strobj c _ => c ∉ D.strconstructed
  | .none => .none ∉ D.basictypes
  | .bool _ => .bool ∉ D.basictypes
  | .int _ => .int ∉ D.basictypes
  | .float _ => .float ∉ D.basictypes
  | .str _ => .str ∉ D.basictypes
  | .bytes _ => .bytes ∉ D.basictypes
  | _ => False

/-- `x` is a reason for dump to raise `e`:
* TypedloadValueError for `x`, of a class without handler;
* NotImplementedError for a time or datetime with a timezone, without isodates;
* TypeError for a dictionary with a key that is dumped as something unhashable. -/
def DumpFault (W : World) (D : DConfig) (x : Val) (e : Exc) : Prop :=
  (e.cls = .tlValue ∧ e.value = x ∧ Undumpable D x) ∨
  (e.cls = .notImplemented ∧ D.isodates = false ∧ ∃ z, tzOf x = some z) ∨
  (e.cls = .type ∧ ∃ kvs p d sd, x = .dict kvs ∧ p ∈ kvs ∧ Dumps W D {} p.1 .any d sd ∧ W.hash d = false)

/-- The values in which enum members are nested finitely deep (as always in Python: the value of a member exists before the member). -/
def Grounded (W : World) (v : Val) : Prop := Acc (fun x y => PartOf W y x) v

section
/-- The computation ends, with a result satisfying `P` or an exception satisfying `Q`. -/
def Ends {α : Type} (m : Nat → R α) (P : α → Prop) (Q : Exc → Prop) : Prop := (∃ a, Ok m a ∧ P a) ∨ ∃ e, Er m e ∧ Q e

theorem Ends.pure {α : Type} {a : α} {P : α → Prop} {Q : Exc → Prop} (h : P a) : Ends (fun _ => (Pure.pure a : R α)) P Q := Or.inl ⟨a, Ok.pure a, h⟩
theorem Ends.throw {α : Type} {e : Exc} {P : α → Prop} {Q : Exc → Prop} (h : Q e) : Ends (fun _ => (M.throw e : R α)) P Q := Or.inr ⟨e, Er.throw e, h⟩
theorem Ends.bind {α β : Type} {m : Nat → R α} {f : Nat → α → R β} {P : α → Prop} {P' : β → Prop} {Q : Exc → Prop} (h1 : Ends m P Q)
    (h2 : ∀ a, P a → Ends (fun n => f n a) P' Q) : Ends (fun n => m n >>= f n) P' Q := by
  rcases h1 with ⟨a, ha, hp⟩ | ⟨e, he, hq⟩
  · rcases h2 a hp with ⟨b, hb, hp'⟩ | ⟨e, he, hq⟩
    · exact Or.inl ⟨b, Ok.bind ha hb, hp'⟩
    · exact Or.inr ⟨e, Er.bind2 ha he, hq⟩
  · exact Or.inr ⟨e, Er.bind1 he, hq⟩
end

/-- One dump. -/
abbrev DumpEnds (W : World) (D : DConfig) (Q : Exc → Prop) (v : Val) (a : Ty) : Prop := Ends (fun n => Ref.dump W D n v a) (fun _ => True) Q

section
variable {Q : Exc → Prop}

theorem Ends.dumpList (xs : List Val) (h : ∀ x ∈ xs, DumpEnds W D Q x .any) : Ends (fun n => dumpList (Ref.dump W D n) xs) (fun _ => True) Q := by
  induction xs with
  | nil => exact .pure trivial
  | cons x xs ih =>
    unfold TL.dumpList
    exact .bind (h x (by simp)) (fun y _ => .bind (ih (fun x hx => h x (by simp [hx]))) (fun ys _ => .pure trivial))

theorem Ends.dumpNt (defaults : List (String × Val)) (fs : List (String × Val)) (h : ∀ p ∈ fs, DumpEnds W D Q p.2 .any) :
    Ends (fun n => dumpNt D (Ref.dump W D n) defaults fs) (fun _ => True) Q := by
  induction fs with
  | nil => exact .pure trivial
  | cons p fs ih =>
    obtain ⟨k, x⟩ := p
    have ih := ih (fun p hp => h p (by simp [hp]))
    unfold TL.dumpNt
    by_cases hb : (D.hidedefault && isDefault defaults k x) = true
    · simp only [hb, if_true]; exact ih
    · simp only [hb]
      exact .bind (h (k, x) (by simp)) (fun y _ => .bind ih (fun r _ => .pure trivial))

theorem Ends.dumpFields (cd : ClassDef) (defaults : List (String × Val)) (hints : List (String × Ty)) (vals : List (String × Val))
    (h : ∀ p ∈ vals, ∀ a, DumpEnds W D Q p.2 a) (fs : List String) (hfs : ∀ f ∈ fs, ∃ x, aget vals f = some x) : ∀ acc,
    Ends (fun n => dumpFields W D (Ref.dump W D n) cd defaults hints vals fs acc) (fun _ => True) Q := by
  induction fs with
  | nil => intro acc; exact .pure trivial
  | cons f fs ih =>
    intro acc
    have ih := ih (fun f hf => hfs f (by simp [hf]))
    obtain ⟨x, hx⟩ := hfs f (by simp)
    unfold TL.dumpFields
    simp only [hx]
    by_cases hb : (D.hidedefault && isDefault defaults f x) = true
    · simp only [hb, if_true]; exact ih _
    · simp only [hb]
      exact .bind (h (f, x) (aget_mem hx) _) (fun y _ => ih _)

theorem Ends.dumpAttrs (vals : List (String × Val)) (h : ∀ p ∈ vals, ∀ a, DumpEnds W D Q p.2 a) (fs : List Field)
    (hfs : ∀ f ∈ fs, ∃ x, aget vals f.name = some x) : ∀ acc,
    Ends (fun n => dumpAttrs D (Ref.dump W D n) vals fs acc) (fun _ => True) Q := by
  induction fs with
  | nil => intro acc; exact .pure trivial
  | cons f fs ih =>
    intro acc
    have ih := ih (fun f hf => hfs f (by simp [hf]))
    obtain ⟨x, hx⟩ := hfs f (by simp)
    unfold TL.dumpAttrs
    simp only [hx]
    by_cases hr : (!f.repr) = true
    · simp only [hr, if_true]; exact ih _
    · have hr' : f.repr = true := by simpa using hr
      simp only [hr']
      change Ends (fun n => (if (D.hidedefault && attrIsDefault f x) = true then _ else _ : R _)) _ _
      by_cases hb : (D.hidedefault && attrIsDefault f x) = true
      · simp only [hb, if_true]; exact ih _
      · simp only [hb]
        exact .bind (h (f.name, x) (aget_mem hx) _) (fun y _ => ih _)

theorem Ends.dumpDict (kvs : List (Val × Val)) (h1 : ∀ p ∈ kvs, DumpEnds W D Q p.1 .any) (h2 : ∀ p ∈ kvs, DumpEnds W D Q p.2 .any)
    (hq : ∀ p ∈ kvs, ∀ d, Ok (fun n => Ref.dump W D n p.1 .any) d → W.hash d = false → Q (.plain .type)) : ∀ acc,
    Ends (fun n => dumpDict W (Ref.dump W D n) kvs acc) (fun _ => True) Q := by
  induction kvs with
  | nil => intro acc; exact .pure trivial
  | cons p kvs ih =>
    obtain ⟨k, x⟩ := p
    intro acc
    have ih := ih (fun p hp => h1 p (by simp [hp])) (fun p hp => h2 p (by simp [hp])) (fun p hp => hq p (by simp [hp]))
    unfold TL.dumpDict
    rcases h1 (k, x) (by simp) with ⟨d, hd, _⟩ | ⟨e, he, hqe⟩
    · have hd' : Ends (fun n => Ref.dump W D n k .any) (fun a => a = d) Q := Or.inl ⟨d, hd, rfl⟩
      refine .bind hd' (fun a ha => .bind (h2 (k, x) (by simp)) (fun y _ => ?_))
      subst ha
      cases hh : W.hash a with
      | true => exact ih _
      | false => exact .throw (hq (k, x) (by simp) a hd hh)
    · exact .bind (Or.inr ⟨e, he, hqe⟩ : Ends _ (fun _ => False) Q) (fun a ha => ha.elim)

theorem DumpEnds.step (hdd : D.Default) {v : Val} {a : Ty} {h : DHandler} (hh : dHandlerOf W D v = some h)
    (ho : Ends (fun n => dstep W D (fun c => (Pure.pure (mkDataDesc W (W.cls c)) : M Unit Exc DataDesc)) (Ref.dump W D n) h v a) (fun _ => True) Q) :
    DumpEnds W D Q v a := by
  have hs : ∀ n, Ref.dump W D (n + 1) v a = dstep W D (fun c => (Pure.pure (mkDataDesc W (W.cls c)) : M Unit Exc DataDesc)) (Ref.dump W D n) h v a := by
    intro n
    show (match dPick W D v with
      | .error e => M.throw e
      | .ok h => dstep W D (fun c => Pure.pure (mkDataDesc W (W.cls c))) (Ref.dump W D n) h v a) = _
    rw [dPick_eq hdd, hh]
  rcases ho with ⟨r, ⟨N, ho⟩, hp⟩ | ⟨e, ⟨N, ho⟩, hq⟩
  · refine Or.inl ⟨r, ⟨N + 1, fun n hn => ?_⟩, hp⟩
    obtain ⟨m, rfl⟩ : ∃ m, n = m + 1 := ⟨n - 1, by omega⟩
    dsimp only
    rw [hs]
    exact ho m (by omega)
  · refine Or.inr ⟨e, ⟨N + 1, fun n hn => ?_⟩, hq⟩
    obtain ⟨m, rfl⟩ : ∃ m, n = m + 1 := ⟨n - 1, by omega⟩
    dsimp only
    rw [hs]
    exact ho m (by omega)

theorem DumpEnds.unable (hdd : D.Default) {v : Val} {a : Ty} (hh : dHandlerOf W D v = none) (hq : Q (unableToDump v)) : DumpEnds W D Q v a := by
  refine Or.inr ⟨_, ⟨1, fun n hn => ?_⟩, hq⟩
  obtain ⟨m, rfl⟩ : ∃ m, n = m + 1 := ⟨n - 1, by omega⟩
  show (match dPick W D v with
      | .error e => M.throw e
      | .ok h => dstep W D (fun c => Pure.pure (mkDataDesc W (W.cls c))) (Ref.dump W D m) h v a) () = _
  rw [dPick_eq hdd, hh]
  rfl
end

theorem legal_attrs {c : Nat} {fs : List (String × Val)} (h : fs.map (·.1) = (W.cls c).fields.map (·.name)) :
    ∀ f ∈ (W.cls c).fields, ∃ x, aget fs f.name = some x := by
  intro f hf
  have hm : f.name ∈ fs.map (·.1) := by rw [h]; exact List.mem_map.2 ⟨f, hf, rfl⟩
  cases ha : aget fs f.name with
  | some x => exact ⟨x, rfl⟩
  | none =>
    exfalso
    obtain ⟨p, hp, he⟩ := List.mem_map.1 hm
    have : ∀ l : List (String × Val), p ∈ l → aget l f.name ≠ none := by
      intro l
      induction l with
      | nil => intro h; cases h
      | cons q l ih =>
        intro h hn
        simp only [aget] at hn
        split at hn
        · cases hn
        · rename_i hne
          rcases List.mem_cons.1 h with rfl | h
          · exact hne (by simp [he])
          · exact ih h hn
    exact this fs hp ha

/-- Dumping ends, and there is a reason inside the value for every exception. -/
theorem outcome (hdd : D.Default) {v : Val} (hg : Grounded W v) : Legal W v → ∀ a, DumpEnds W D (fun e => ∃ x, Inside W v x ∧ DumpFault W D x e) v a := by
  induction hg with
  | intro v _ ih =>
    intro hv a
    have sub : ∀ x, PartOf W v x → ∀ a, DumpEnds W D (fun e => ∃ x, Inside W v x ∧ DumpFault W D x e) x a := by
      intro x hx a
      rcases ih x hx (hv.inside hx.inside) a with h | ⟨e, he, y, hy, hf⟩
      · exact Or.inl h
      · exact Or.inr ⟨e, he, y, hy.trans hx.inside, hf⟩
    by_cases hb : D.isBasic (typeOf v) = true
    · exact .step hdd (h := .identity) (by unfold dHandlerOf; rw [if_pos hb]) (.pure trivial)
    have top := hv.top
    have prim : ∀ p, typeOf v = .prim p → p ∉ D.basictypes := by
      intro p hp hm
      apply hb
      rw [hp]
      simpa [DConfig.isBasic] using hm
    have handler : ∀ h, (match (generalizing := false) v with
        | .nt _ _ => some DHandler.namedtuple
        | .inst c _ => match (W.cls c).kind with
          | .dataclass => some .dataclass
          | .attrs => some .attrs
          | _ => none
        | .seq _ _ => some .iterator
        | .enumv _ _ => some .enum
        | .dict _ => some .dict
        | .date .. | .time .. | .datetime .. => some .date
        | .timedelta _ => some .timedelta
        | .pattern _ => some .pattern
        | .strobj c _ => if D.strconstructed.contains c then some .str else none
        | _ => none) = h → dHandlerOf W D v = h := by
      intro h hh; unfold dHandlerOf; rw [if_neg hb]; exact hh
    have un : dHandlerOf W D v = none → unableToDump v = .mk .tlValue (.unableToDump v) [] v (some (typeOf v)) [] → Undumpable D v →
        DumpEnds W D (fun e => ∃ x, Inside W v x ∧ DumpFault W D x e) v a := by
      intro h1 h2 h3
      exact .unable hdd h1 ⟨v, .self, Or.inl ⟨by rw [h2]; rfl, by rw [h2]; rfl, h3⟩⟩
    cases v with
    | none => exact un (handler _ rfl) rfl (prim _ rfl)
    | bool _ => exact un (handler _ rfl) rfl (prim _ rfl)
    | int _ => exact un (handler _ rfl) rfl (prim _ rfl)
    | float _ => exact un (handler _ rfl) rfl (prim _ rfl)
    | str _ => exact un (handler _ rfl) rfl (prim _ rfl)
    | bytes _ => exact un (handler _ rfl) rfl (prim _ rfl)
    | ns _ => exact un (handler _ rfl) rfl trivial
    | «opaque» _ _ => exact un (handler _ rfl) rfl trivial
    | seq k xs =>
      refine .step hdd (handler _ rfl) ?_
      simp only [dstep, iteratordump, iterContents]
      split
      · exact .pure trivial
      · exact .bind (.dumpList xs (fun x hx => sub x (.elem hx) .any)) (fun _ _ => .pure trivial)
    | nt c fs =>
      refine .step hdd (handler _ rfl) ?_
      simp only [dstep]
      exact .bind (.dumpNt _ fs (fun p hp => sub p.2 (.item (n := p.1) hp) .any)) (fun _ _ => .pure trivial)
    | enumv e n =>
      refine .step hdd (handler _ rfl) ?_
      obtain ⟨x, hx⟩ := top
      simp only [dstep, hx]
      exact sub x (.member hx) .any
    | dict kvs =>
      refine .step hdd (handler _ rfl) ?_
      simp only [dstep]
      refine .bind (.dumpDict kvs (fun p hp => sub p.1 (.key (x := p.2) hp) .any) (fun p hp => sub p.2 (.val (k := p.1) hp) .any) ?_ []) (fun _ _ => .pure trivial)
      intro p hp d hd hh
      obtain ⟨n, hn⟩ := hd.exists
      obtain ⟨sd, hs⟩ := (dumps_ref hdd DReachable.new (hv.inside (.key (x := p.2) .self hp)) .any d).2 ⟨n, hn⟩
      exact ⟨_, .self, Or.inr (Or.inr ⟨rfl, kvs, p, d, sd, rfl, hp, hs, hh⟩)⟩
    | inst c fs =>
      obtain ⟨hk, hfs, _⟩ := top
      have hat := legal_attrs hfs
      rcases hk with hk | hk
      · refine .step hdd (h := .dataclass) (handler _ (by simp [hk])) ?_
        simp only [dstep]
        refine .bind (.pure (P := fun d => d = mkDataDesc W (W.cls c)) rfl) (fun d hd => ?_)
        subst hd
        refine .bind (.dumpFields _ _ _ fs (fun p hp a => sub p.2 (.attr (n := p.1) hp) a) _ ?_ []) (fun _ _ => .pure trivial)
        intro f hf
        obtain ⟨g, hg, rfl⟩ := List.mem_map.1 ((W.setOrder_perm _).mem_iff.1 hf)
        exact hat g hg
      · refine .step hdd (h := .attrs) (handler _ (by simp [hk])) ?_
        simp only [dstep]
        exact .bind (.dumpAttrs fs (fun p hp a => sub p.2 (.attr (n := p.1) hp) a) _ hat []) (fun _ _ => .pure trivial)
    | date y m d =>
      refine .step hdd (handler _ rfl) ?_
      simp only [dstep, datetimedump]
      split <;> exact .pure trivial
    | time h mi s us tz =>
      refine .step hdd (handler _ rfl) ?_
      simp only [dstep, datetimedump]
      cases hi : D.isodates with
      | true => exact .pure trivial
      | false =>
        cases tz with
        | none => exact .pure trivial
        | some z => exact .throw ⟨_, .self, Or.inr (Or.inl ⟨rfl, hi, z, rfl⟩)⟩
    | datetime y m d h mi s us tz =>
      refine .step hdd (handler _ rfl) ?_
      simp only [dstep, datetimedump]
      cases hi : D.isodates with
      | true => exact .pure trivial
      | false =>
        cases tz with
        | none => exact .pure trivial
        | some z => exact .throw ⟨_, .self, Or.inr (Or.inl ⟨rfl, hi, z, rfl⟩)⟩
    | timedelta us => exact .step hdd (handler _ rfl) (.pure trivial)
    | pattern p => exact .step hdd (handler _ rfl) (.pure trivial)
    | strobj c x =>
      by_cases hc : c ∈ D.strconstructed
      · exact .step hdd (h := .str) (handler _ (by simp [hc])) (.pure trivial)
      · exact un (handler _ (by simp [hc])) rfl hc


/-! ## Groundedness -/

theorem Grounded.of_parts {v : Val} (h : ∀ x, PartOf W v x → Grounded W x) : Grounded W v := Acc.intro v h

/-- The values of the members of enums exist before the enums. -/
def World.GroundedEnums (W : World) : Prop := ∀ e n x, aget (W.enm e).members n = some x → Grounded W x

section
variable (hw : W.GroundedEnums)
include hw

omit hw in
theorem pair_lt1 {α : Type} [SizeOf α] {l : List (α × Val)} {k : α} {x : Val} (h : (k, x) ∈ l) : sizeOf k < sizeOf l := by
  have := List.sizeOf_lt_of_mem h
  have h2 : sizeOf (k, x) = 1 + sizeOf k + sizeOf x := rfl
  omega
omit hw in
theorem pair_lt2 {α : Type} [SizeOf α] {l : List (α × Val)} {k : α} {x : Val} (h : (k, x) ∈ l) : sizeOf x < sizeOf l := by
  have := List.sizeOf_lt_of_mem h
  have h2 : sizeOf (k, x) = 1 + sizeOf k + sizeOf x := rfl
  omega

theorem grounded (v : Val) : Grounded W v := by
  match v with
  | .none | .bool _ | .int _ | .float _ | .str _ | .bytes _ | .date .. | .time .. | .datetime .. | .timedelta _ | .strobj _ _ | .opaque _ _ =>
    exact .of_parts (fun x hx => (by cases hx))
  | .seq k xs =>
    refine .of_parts (fun x hx => ?_)
    cases hx; rename_i h
    have := List.sizeOf_lt_of_mem h
    exact grounded x
  | .dict kvs =>
    refine .of_parts (fun x hx => ?_)
    cases hx with
    | key h => rename_i y; have := pair_lt1 h; exact grounded x
    | val h => rename_i y; have := pair_lt2 h; exact grounded x
  | .ns kvs =>
    refine .of_parts (fun x hx => ?_)
    cases hx with
    | arg h => have := pair_lt2 h; exact grounded x
  | .nt c kvs =>
    refine .of_parts (fun x hx => ?_)
    cases hx with
    | item h => have := pair_lt2 h; exact grounded x
  | .inst c kvs =>
    refine .of_parts (fun x hx => ?_)
    cases hx with
    | attr h => have := pair_lt2 h; exact grounded x
  | .enumv e n =>
    refine .of_parts (fun x hx => ?_)
    cases hx; rename_i h
    exact hw _ _ _ h
  | .pattern p =>
    refine .of_parts (fun x hx => ?_)
    cases hx
    exact grounded p
termination_by sizeOf v
decreasing_by all_goals (simp_wf; try omega)
end

/-! ## C51, C52 -/

theorem refdump_err_le {n m : Nat} (h : n ≤ m) {v : Val} {t : Ty} {e : Exc} (hr : Ref.dump W D n v t () = .err e ()) :
    Ref.dump W D m v t () = .err e () := by
  rw [LeM.refdump h v t () (by rw [hr]; exact fun h => by cases h), hr]

/-- **C51** Dumping always ends, with a result or an exception. -/
theorem C51_ends (hdd : D.Default) (hw : W.GroundedEnums) {s : DState} (hs : DReachable W D s) {v : Val} (hv : Legal W v) (a : Ty) :
    (∃ r s', Dumps W D s v a r s') ∨ ∃ e s', DumpRaises W D s v a e s' := by
  rcases outcome hdd (grounded hw v) hv a with ⟨r, hr, _⟩ | ⟨e, he, _⟩
  · obtain ⟨s', h⟩ := (dumps_ref hdd hs hv a r).2 hr.exists
    exact Or.inl ⟨r, s', h⟩
  · obtain ⟨s', h⟩ := (dumpRaises_ref hdd hs hv a e).2 he.exists
    exact Or.inr ⟨e, s', h⟩

/-- **C51** Dumping succeeds unless the value has inside it an object of a class no handler deals with, a time with a timezone (without
isodates) or a dictionary with a key dumped as something unhashable. -/
theorem C51_dumps (hdd : D.Default) (hw : W.GroundedEnums) {s : DState} (hs : DReachable W D s) {v : Val} (hv : Legal W v)
    (h1 : ∀ x, Inside W v x → ¬ Undumpable D x)
    (h2 : D.isodates = true ∨ ∀ x, Inside W v x → tzOf x = none)
    (h3 : ∀ kvs, Inside W v (.dict kvs) → ∀ p ∈ kvs, ∀ d s', Dumps W D {} p.1 .any d s' → W.hash d = true) (a : Ty) :
    ∃ r s', Dumps W D s v a r s' := by
  rcases outcome hdd (grounded hw v) hv a with ⟨r, hr, _⟩ | ⟨e, he, x, hx, hf⟩
  · obtain ⟨s', h⟩ := (dumps_ref hdd hs hv a r).2 hr.exists
    exact ⟨r, s', h⟩
  · exfalso
    rcases hf with ⟨_, _, hu⟩ | ⟨_, hi, z, hz⟩ | ⟨_, kvs, p, d, sd, rfl, hp, hd, hh⟩
    · exact h1 x hx hu
    · rcases h2 with h2 | h2
      · rw [h2] at hi; cases hi
      · rw [h2 x hx] at hz; cases hz
    · rw [h3 kvs hx p hp d sd hd] at hh; cases hh

/-- **C52** If dumping raises an exception there is something inside the value that explains it: a TypedloadValueError carries as its value an
object of a class no handler deals with, NotImplementedError comes from a time with a timezone, TypeError from an unhashable dumped key, and
there is no other exception. -/
theorem C52_explained (hdd : D.Default) (hw : W.GroundedEnums) {s s' : DState} (hs : DReachable W D s) {v : Val} (hv : Legal W v) {a : Ty} {e : Exc}
    (h : DumpRaises W D s v a e s') : ∃ x, Inside W v x ∧
      ((e.cls = .tlValue ∧ e.value = x ∧ Undumpable D x) ∨
       (e.cls = .notImplemented ∧ D.isodates = false ∧ ∃ z, tzOf x = some z) ∨
       (e.cls = .type ∧ ∃ kvs p d sd, x = .dict kvs ∧ p ∈ kvs ∧ Dumps W D {} p.1 .any d sd ∧ W.hash d = false)) := by
  obtain ⟨n, hn⟩ := (dumpRaises_ref hdd hs hv a e).1 ⟨s', h⟩
  rcases outcome hdd (grounded hw v) hv a with ⟨r, ⟨N, hr⟩, _⟩ | ⟨e', ⟨N, he⟩, x, hx, hf⟩
  · exfalso
    have h1 := hr (n + N) (by omega)
    have h2 : Ref.dump W D (n + N) v a () = .err e () := refdump_err_le (by omega) hn
    dsimp only at h1
    rw [h1] at h2; cases h2
  · have h1 := he (n + N) (by omega)
    have h2 : Ref.dump W D (n + N) v a () = .err e () := refdump_err_le (by omega) hn
    dsimp only at h1
    rw [h1] at h2
    cases h2
    exact ⟨x, hx, hf⟩


theorem Sample.groundedEnums : Sample.W.GroundedEnums := by
  have leaf : ∀ v : Val, (∀ x, ¬ PartOf Sample.W v x) → Grounded Sample.W v := fun v h => .of_parts (fun x hx => absurd hx (h x))
  intro e n x h
  match e with
  | 0 =>
    have h' : aget [("A", Val.int 1), ("B", Val.str "b")] n = some x := h
    simp only [aget] at h'
    split at h'
    · cases h'; exact leaf _ (fun x hx => (by cases hx))
    · split at h'
      · cases h'; exact leaf _ (fun x hx => (by cases hx))
      · cases h'
  | 1 =>
    have h' : aget [("A", Val.tuple [.int 1, .int 2])] n = some x := h
    simp only [aget] at h'
    split at h'
    · cases h'
      refine .of_parts (fun x hx => ?_)
      cases hx; rename_i hm
      simp only [List.mem_cons, List.not_mem_nil, or_false] at hm
      rcases hm with rfl | rfl <;> exact leaf _ (fun x hx => (by cases hx))
    · cases h'
  | _ + 2 => cases h

/-- A value meeting the hypotheses of `C51_dumps`: `[E.B, {'k': timedelta(microseconds=5)}]`. -/
example : Legal Sample.W (.list [.enumv 0 "B", .dict [(.str "k", .timedelta 5)]]) ∧
    ∀ x, Inside Sample.W (.list [.enumv 0 "B", .dict [(.str "k", .timedelta 5)]]) x →
      ¬ Undumpable Sample.D x ∧ tzOf x = none ∧
      ∀ kvs, x = .dict kvs → ∀ p ∈ kvs, ∀ d s', Dumps Sample.W Sample.D {} p.1 .any d s' → Sample.W.hash d = true := by
  have key : ∀ x, Inside Sample.W (.list [.enumv 0 "B", .dict [(.str "k", .timedelta 5)]]) x →
      x = .list [.enumv 0 "B", .dict [(.str "k", .timedelta 5)]] ∨ x = .enumv 0 "B" ∨ x = .dict [(.str "k", .timedelta 5)] ∨
      x = .str "b" ∨ x = .str "k" ∨ x = .timedelta 5 := by
    intro x hx
    induction hx with
    | self => simp
    | elem _ h ih =>
      rcases ih with ih | ih | ih | ih | ih | ih <;> cases ih
      simp only [List.mem_cons, List.not_mem_nil, or_false] at h
      rcases h with rfl | rfl <;> simp
    | key _ h ih =>
      rcases ih with ih | ih | ih | ih | ih | ih <;> cases ih
      simp only [List.mem_cons, List.not_mem_nil, or_false, Prod.mk.injEq] at h
      simp [h.1]
    | val _ h ih =>
      rcases ih with ih | ih | ih | ih | ih | ih <;> cases ih
      simp only [List.mem_cons, List.not_mem_nil, or_false, Prod.mk.injEq] at h
      simp [h.2]
    | arg _ _ ih | item _ _ ih | attr _ _ ih | source _ ih => rcases ih with ih | ih | ih | ih | ih | ih <;> cases ih
    | member _ h ih =>
      rcases ih with ih | ih | ih | ih | ih | ih <;> cases ih
      have h' : some (Val.str "b") = some _ := h
      cases h'
      simp
  constructor
  · intro x hx
    rcases key x hx with rfl | rfl | rfl | rfl | rfl | rfl
    · intro h; cases h
    · exact ⟨_, rfl⟩
    · refine ⟨.cons (fun _ h => (by cases h)) .nil, fun p hp => ?_⟩
      simp only [List.mem_cons, List.not_mem_nil, or_false] at hp
      subst hp; rfl
    · trivial
    · trivial
    · exact (show validTimedelta 5 = true by decide)
  · intro x hx
    rcases key x hx with rfl | rfl | rfl | rfl | rfl | rfl
    · exact ⟨fun h => h, rfl, fun _ h => (by cases h)⟩
    · exact ⟨fun h => h, rfl, fun _ h => (by cases h)⟩
    · refine ⟨fun h => h, rfl, fun kvs h p hp d s' hd => ?_⟩
      cases h
      simp only [List.mem_cons, List.not_mem_nil, or_false] at hp
      subst hp
      have hl : Legal Sample.W (.str "k") := Legal.of_parts trivial (fun x hx => (by cases hx))
      obtain ⟨n, hn⟩ := (dumps_ref (C := Sample.D) rfl DReachable.new hl .any d).1 ⟨s', hd⟩
      have h1 : Ref.dump Sample.W Sample.D 1 (.str "k") .any () = .ok (.str "k") () := rfl
      rw [refdump_det hn h1]
      rfl
    · exact ⟨fun h => h (by decide), rfl, fun _ h => (by cases h)⟩
    · exact ⟨fun h => h (by decide), rfl, fun _ h => (by cases h)⟩
    · exact ⟨fun h => h, rfl, fun _ h => (by cases h)⟩

/-- The three exceptions of `C52_explained`. -/
example : (dump Sample.W Sample.D 2 (.list [.opaque "object" 0]) .any {}).err?.map (fun e => (e.cls, typeOf e.value)) =
    some (.tlValue, typeOf (.opaque "object" 0)) := by decide
example : (dump Sample.W Sample.D 2 (.list [.time 1 2 3 4 (some "UTC")]) .any {}).err?.map (·.cls) = some .notImplemented := by decide
example : (dump Sample.W Sample.D 3 (.dict [(.tuple [.int 1], .int 2)]) .any {}).err?.map (·.cls) = some .type := by decide

end TL
