import Verif.Lemmas.RefObj
import Verif.Props.Discriminator
/-!
# C42, C43, C44: dumping and loading back
-/

namespace TL

/-! ## Specification -/

/-- A value, the data it is dumped to, and the value loaded back. -/
structure Trip where
  v : Val
  d : Val
  r : Val

/-- hidedefault omits the attribute `x` of the field `f`: it equals the default. -/
def hides (D : DConfig) (f : Field) (x : Val) : Bool := D.hidedefault && (match f.default with
  | some d => pyEq d x
  | none => false)

/-- The same for attrs, which compares in the other order. -/
def hidesAttr (D : DConfig) (f : Field) (x : Val) : Bool := D.hidedefault && (match f.default with
  | some d => pyEq x d
  | none => false)

section
variable (W : World) (C : Config) (D : DConfig) (Γ : Env)

/-- `v` is a value of the type `t` without parts, and is written as `d`. -/
inductive Leaf : Val → Ty → Val → Prop
  | basic {v p} : typeOf v = .prim p → p ∈ D.basictypes → (p ∈ C.basictypes ∨ p = .none) → Leaf v (.prim p) v
  | literal {v p vs} : typeOf v = .prim p → p ∈ D.basictypes → pyIn v vs = true → Leaf v (.lit vs) v
  /-- members whose value is of a basic type and differs from that of the other members -/
  | enum {e n x p} : aget (W.enm e).members n = some x → typeOf x = .prim p → p ∈ D.basictypes → pyEq x x = true →
      (∀ q ∈ (W.enm e).members, pyEq q.2 x = true → q.1 = n) → Leaf (.enumv e n) (.enum e) x
  | date {y m d} : D.isodates = false → validDate y m d = true → Leaf (.date y m d) (.dt .date) (.list [.int y, .int m, .int d])
  | time {h mi s us} : D.isodates = false → validTime h mi s us = true →
      Leaf (.time h mi s us none) (.dt .time) (.list [.int h, .int mi, .int s, .int us])
  | datetime {y m d h mi s us} : D.isodates = false → validDate y m d = true → validTime h mi s us = true →
      Leaf (.datetime y m d h mi s us none) (.dt .datetime) (.list [.int y, .int m, .int d, .int h, .int mi, .int s, .int us])
  /-- `fromisoformat` reads what `isoformat` writes -/
  | iso {v k} : D.isodates = true → typeOf v = .dt k → W.fromIso k (W.isoformat v) = .ok v → Leaf v (.dt k) (.str (W.isoformat v))
  /-- intervals whose number of seconds is represented precisely enough -/
  | timedelta {us} : W.tdFloat (W.totalSeconds us) = .ok us → Leaf (.timedelta us) .timedelta (.float (W.totalSeconds us))
  | pattern {src a} : (typeOf src = .prim .str ∨ typeOf src = .prim .bytes) → W.reCompile src = .ok () → Leaf (.pattern src) (.pattern a) src
  /-- objects whose class, or a class written in its place (`PosixPath` for `Path`), reads back what `str` writes -/
  | strcons {v c c'} : typeOf v = .strcons c' → c' ∈ D.strconstructed → c ∈ C.strconstructed →
      W.call (.strcons c) (.str (W.strOf v)) = .ok v → Leaf v (.strcons c) (.str (W.strOf v))

/-- `v` is a value of the type `t`, it is written as `d`, and `r` is `v` with the attributes omitted by hidedefault replaced by the defaults
they are equal to. -/
inductive Serial : Val → Ty → Val → Val → Prop
  | leaf {v t d} : Leaf W C D v t d → Serial v t d v
  | any {v} : Plain (· ∈ D.basictypes) v → Serial v .any v v
  /-- List, Tuple[t, ...], Set, FrozenSet -/
  | coll {k et} (l : List Trip) : (∃ h, pick W C et = .ok h) → (∀ q ∈ l, Serial q.v et q.d q.r) →
      (k.isSet = true → Distinct (l.map (·.r)) ∧ ∀ q ∈ l, W.hash q.r = true) →
      Serial (.seq k (l.map (·.v))) (.coll k et) (.list (l.map (·.d))) (.seq k (l.map (·.r)))
  | tuple (l : List (Ty × Trip)) : (∀ q ∈ l, Serial q.2.v q.1 q.2.d q.2.r) →
      Serial (.tuple (l.map (·.2.v))) (.tuple (l.map (·.1))) (.list (l.map (·.2.d))) (.tuple (l.map (·.2.r)))
  /-- dictionaries whose keys are still distinct and hashable when written -/
  | dict {kt vt} (l : List (Trip × Trip)) : (∃ h, pick W C kt = .ok h) → (∃ h, pick W C vt = .ok h) →
      (∀ q ∈ l, Serial q.1.v kt q.1.d q.1.r) → (∀ q ∈ l, Serial q.2.v vt q.2.d q.2.r) →
      Distinct (l.map (·.1.d)) → (∀ q ∈ l, W.hash q.1.d = true) → Distinct (l.map (·.1.r)) → (∀ q ∈ l, W.hash q.1.r = true) →
      Serial (.dict (l.map (fun q => (q.1.v, q.2.v)))) (.dict kt vt) (.dict (l.map (fun q => (q.1.d, q.2.d))))
        (.dict (l.map (fun q => (q.1.r, q.2.r))))
  | namedtuple {c} (l : List (Field × Trip)) : (W.cls c).kind = .namedtuple → (W.cls c).fields = l.map (·.1) →
      (l.map (·.1.name)).Nodup →
      (∀ q ∈ l, hides D q.1 q.2.v = false → Serial q.2.v q.1.ty q.2.d q.2.r) →
      (∀ q ∈ l, hides D q.1 q.2.v = true → q.1.default = some q.2.r) →
      Serial (.nt c (l.map (fun q => (q.1.name, q.2.v)))) (.obj c)
        (.dict ((l.filter (fun q => !hides D q.1 q.2.v)).map (fun q => (.str q.1.name, q.2.d)))) (.nt c (l.map (fun q => (q.1.name, q.2.r))))
  /-- dataclasses: all fields are arguments of `__init__`, which only stores them; external names are distinct and not empty; the fields are written in some
  order (`m`) -/
  | dataclass {c} (l m : List (Field × Trip)) : m.Perm l → m.map (·.1.name) = W.setOrder ((W.cls c).fields.map (·.name)) → (W.cls c).kind = .dataclass → (W.cls c).fields = l.map (·.1) →
      (l.map (·.1.name)).Nodup → (l.map (dumpKey D ·.1)).Nodup → (∀ q ∈ l, aget q.1.metadata D.mangleKey ≠ some "") →
      (∀ q ∈ l, q.1.init = true) → W.initHook c (l.map (fun q => (q.1.name, q.2.r))) = .ok (l.map (fun q => (q.1.name, q.2.r))) →
      (∀ q ∈ l, hides D q.1 q.2.v = false → Serial q.2.v q.1.ty q.2.d q.2.r) →
      (∀ q ∈ l, hides D q.1 q.2.v = true → q.1.default = some q.2.r) →
      Serial (.inst c (l.map (fun q => (q.1.name, q.2.v)))) (.obj c)
        (.dict ((m.filter (fun q => !hides D q.1 q.2.v)).map (fun q => (.str (dumpKey D q.1), q.2.d)))) (.inst c (l.map (fun q => (q.1.name, q.2.r))))
  /-- attrs classes: the same, without converters, private attributes and `repr=False` -/
  | attrs {c} (l : List (Field × Trip)) : (W.cls c).kind = .attrs → (W.cls c).fields = l.map (·.1) →
      (l.map (·.1.name)).Nodup → (l.map (dumpKey D ·.1)).Nodup →
      (∀ q ∈ l, q.1.init = true ∧ q.1.conv = none ∧ q.1.repr = true ∧ q.1.name.toList.head? ≠ some '_') →
      W.initHook c (l.map (fun q => (q.1.name, q.2.r))) = .ok (l.map (fun q => (q.1.name, q.2.r))) →
      (∀ q ∈ l, hidesAttr D q.1 q.2.v = false → Serial q.2.v q.1.ty q.2.d q.2.r) →
      (∀ q ∈ l, hidesAttr D q.1 q.2.v = true → q.1.default = some q.2.r) →
      Serial (.inst c (l.map (fun q => (q.1.name, q.2.v)))) (.obj c)
        (.dict ((l.filter (fun q => !hidesAttr D q.1 q.2.v)).map (fun q => (.str (dumpKey D q.1), q.2.d)))) (.inst c (l.map (fun q => (q.1.name, q.2.r))))
  /-- TypedDict: the dictionary has the required fields, and possibly others -/
  | typeddict {c} (l : List (Field × Trip)) : (W.cls c).kind = .typeddict → ((W.cls c).fields.map (·.name)).Nodup → (l.map (·.1.name)).Nodup →
      (∀ q ∈ l, q.1 ∈ (W.cls c).fields) → (∀ f ∈ (W.cls c).fields, f.required = true → f.notRequired = false → f ∈ l.map (·.1)) →
      .str ∈ D.basictypes →
      (∀ q ∈ l, Serial q.2.v q.1.ty q.2.d q.2.r) →
      Serial (.dict (l.map (fun q => (.str q.1.name, q.2.v)))) (.obj c) (.dict (l.map (fun q => (.str q.1.name, q.2.d))))
        (.dict (l.map (fun q => (.str q.1.name, q.2.r))))
  | newtype {n t v d r} : Serial v t d r → Serial v (.newtype n t) d r
  | fref {n t v d r} (f : String → Option Ty) : Γ = some f → f n = some t → Serial v t d r → Serial v (.fref n) d r
  /-- a value of a basic type that is a member of the union -/
  | exact {v p ts} : typeOf v = .prim p → p ∈ D.basictypes → p ∈ C.basictypes → .prim p ∈ ts → Serial v (.union ts) v v
  /-- no Literal field is common to all members of the union, or the data is no dictionary: the members that are tried first refuse the written data -/
  | untagged {v d r u ts us vs} : Serial v u d r → (∀ p, typeOf d = .prim p → p ∈ C.basictypes → .prim p ∉ ts) →
      (d.isDict = true → ¬ ∃ k, ∀ w ∈ ts, HasLiteralField W w k) → preference C ts = us ++ u :: vs →
      (∀ w ∈ us, ∃ e, Declines W C Γ d w e ∧ e.isTL = true) → Serial v (.union ts) d r
  /-- a union of classes told apart by a Literal field present in the written data -/
  | tagged {v kvs r u ts} : Serial v u (.dict kvs) r → DesignatesOnly W kvs ts u → Serial v (.union ts) (.dict kvs) r
end

/-! ## Dumping -/

section dumping
variable {W : World} {D : DConfig}

/-- The dumper without caches writes `v` as `d`. -/
def Writes (W : World) (D : DConfig) (v : Val) (a : Ty) (d : Val) : Prop := Ok (fun n => Ref.dump W D n v a) d

theorem Writes.of_dump {v : Val} {a : Ty} {d : Val} {n : Nat} (h : Ref.dump W D n v a () = .ok d ()) : Writes W D v a d :=
  ⟨n, fun _ hm => refdump_le hm h⟩

theorem Writes.step (hd : D.Default) {v : Val} {a : Ty} {d : Val} {h : DHandler} (hh : dHandlerOf W D v = some h)
    (ho : Ok (fun n => dstep W D (fun c => (Pure.pure (mkDataDesc W (W.cls c)) : M Unit Exc DataDesc)) (Ref.dump W D n) h v a) d) : Writes W D v a d := by
  obtain ⟨N, ho⟩ := ho
  refine ⟨N + 1, fun n hn => ?_⟩
  cases n with
  | zero => omega
  | succ n =>
    show Ref.dump W D (n + 1) v a () = _
    unfold Ref.dump
    rw [dPick_eq hd, hh]
    exact ho n (by omega)

theorem Writes.list (l : List Trip) (h : ∀ q ∈ l, Writes W D q.v .any q.d) : Ok (fun n => dumpList (Ref.dump W D n) (l.map (·.v))) (l.map (·.d)) := by
  induction l with
  | nil => exact Ok.pure _
  | cons q l ih =>
    simp only [List.map_cons, dumpList]
    exact Ok.bind (h q (by simp)) (Ok.bind (ih (fun q hq => h q (by simp [hq]))) (Ok.pure _))

theorem Writes.pairs (l : List (Val × Val × Val × Val)) (h1 : ∀ q ∈ l, Writes W D q.1 .any q.2.1) (h2 : ∀ q ∈ l, Writes W D q.2.2.1 .any q.2.2.2)
    (hh : ∀ q ∈ l, W.hash q.2.1 = true) : ∀ acc,
    Ok (fun n => dumpDict W (Ref.dump W D n) (l.map (fun q => (q.1, q.2.2.1))) acc) (l.foldl (fun a q => dset a q.2.1 q.2.2.2) acc) := by
  induction l with
  | nil => intro acc; exact Ok.pure _
  | cons q l ih =>
    intro acc
    simp only [List.map_cons, dumpDict]
    refine Ok.bind (h1 q (by simp)) (Ok.bind (h2 q (by simp)) ?_)
    simp only [hh q (by simp), if_true]
    exact ih (fun q hq => h1 q (by simp [hq])) (fun q hq => h2 q (by simp [hq])) (fun q hq => hh q (by simp [hq])) _

/-- Enough fuel for all fields. -/
theorem common_fuel {α : Type} {l : List α} {P : α → Prop} {m : α → Nat → R Val} {d : α → Val} (h : ∀ q ∈ l, P q → Ok (m q) (d q)) :
    ∃ N, ∀ n, N ≤ n → ∀ q ∈ l, P q → m q n () = .ok (d q) () := by
  induction l with
  | nil => exact ⟨0, fun _ _ _ h => by cases h⟩
  | cons a l ih =>
    obtain ⟨N, hN⟩ := ih (fun q hq => h q (by simp [hq]))
    by_cases hp : P a
    · obtain ⟨K, hK⟩ := h a (by simp) hp
      refine ⟨max N K, fun n hn q hq hpq => ?_⟩
      rcases List.mem_cons.1 hq with rfl | hq
      · exact hK n (by omega)
      · exact hN n (by omega) q hq hpq
    · refine ⟨N, fun n hn q hq hpq => ?_⟩
      rcases List.mem_cons.1 hq with rfl | hq
      · exact absurd hpq hp
      · exact hN n hn q hq hpq

theorem zip2_map {α β γ : Type} {R : α → β → Prop} (l : List γ) (f : γ → α) (g : γ → β) (h : ∀ q ∈ l, R (f q) (g q)) : Zip2 R (l.map f) (l.map g) := by
  induction l with
  | nil => exact .nil
  | cons q l ih => exact .cons (h q (by simp)) (ih (fun q hq => h q (by simp [hq])))

theorem filter_map_congr {α β : Type} {l : List α} {f : α → β} {p : β → Bool} {q : α → Bool} (h : ∀ a ∈ l, p (f a) = q a) :
    (l.map f).filter p = (l.filter q).map f := by
  induction l with
  | nil => rfl
  | cons a l ih =>
    have := ih (fun b hb => h b (by simp [hb]))
    simp only [List.map_cons, List.filter_cons, h a (by simp), this]
    split <;> rfl

theorem mem_map_name {α : Type} {l : List (Field × Trip)} {g : Trip → α} {q : Field × Trip} (hn : (l.map (·.1.name)).Nodup) (hq : q ∈ l) :
    aget (l.map (fun q => (q.1.name, g q.2))) q.1.name = some (g q.2) :=
  aget_of_mem (by rw [List.map_map]; exact hn) (List.mem_map.2 ⟨q, hq, rfl⟩)

theorem isDefault_hides {c : ClassDef} (hn : (c.fields.map (·.name)).Nodup) {f : Field} (hf : f ∈ c.fields) (x : Val) :
    (D.hidedefault && isDefault (classDefaults c) f.name x) = hides D f x := by
  unfold hides isDefault
  rw [show aget (classDefaults c) f.name = f.default from aget_classDefaults hn hf]
  rfl

theorem Writes.namedtuple (hd : D.Default) {c : Nat} (l : List (Field × Trip)) (hfs : (W.cls c).fields = l.map (·.1)) (hn : (l.map (·.1.name)).Nodup)
    (h : ∀ q ∈ l, hides D q.1 q.2.v = false → Writes W D q.2.v .any q.2.d) (a : Ty) :
    Writes W D (.nt c (l.map (fun q => (q.1.name, q.2.v)))) a
      (.dict ((l.filter (fun q => !hides D q.1 q.2.v)).map (fun q => (.str q.1.name, q.2.d)))) := by
  have hnf : ((W.cls c).fields.map (·.name)).Nodup := by rw [hfs, List.map_map]; exact hn
  refine .step hd (h := .namedtuple) (by simp [dHandlerOf, typeOf, DConfig.isBasic]) ?_
  obtain ⟨N, hN⟩ := common_fuel h
  refine ⟨N, fun n hn' => ?_⟩
  show ((dumpNt D (Ref.dump W D n) _ _) >>= _) () = _
  rw [R.bind_ok]
  refine ⟨_, dumpNt_ok.2 ?_, rfl⟩
  rw [filter_map_congr (q := fun q => !hides D q.1 q.2.v)]
  · refine zip2_map _ _ _ (fun q hq => ⟨rfl, ?_⟩)
    have := List.mem_filter.1 hq
    exact hN n hn' q this.1 (by simpa using this.2)
  · intro q hq
    have hf : q.1 ∈ (W.cls c).fields := by rw [hfs]; exact List.mem_map.2 ⟨q, hq, rfl⟩
    dsimp only
    rw [isDefault_hides hnf hf]

theorem Writes.dataclass (hd : D.Default) {c : Nat} (l m : List (Field × Trip)) (hp : m.Perm l)
    (ho : m.map (·.1.name) = W.setOrder ((W.cls c).fields.map (·.name))) (hk : (W.cls c).kind = .dataclass) (hfs : (W.cls c).fields = l.map (·.1))
    (hn : (l.map (·.1.name)).Nodup) (he : (l.map (dumpKey D ·.1)).Nodup)
    (h : ∀ q ∈ l, hides D q.1 q.2.v = false → Writes W D q.2.v q.1.ty q.2.d) (a : Ty) :
    Writes W D (.inst c (l.map (fun q => (q.1.name, q.2.v)))) a
      (.dict ((m.filter (fun q => !hides D q.1 q.2.v)).map (fun q => (.str (dumpKey D q.1), q.2.d)))) := by
  have hnf : ((W.cls c).fields.map (·.name)).Nodup := by rw [hfs, List.map_map]; exact hn
  refine .step hd (h := .dataclass) (by simp [dHandlerOf, typeOf, DConfig.isBasic, hk]) ?_
  obtain ⟨N, hN⟩ := common_fuel h
  refine ⟨N, fun n hn' => ?_⟩
  show ((Pure.pure (mkDataDesc W (W.cls c)) : M Unit Exc DataDesc) >>= _) () = _
  rw [R.bind_ok]
  refine ⟨_, rfl, ?_⟩
  rw [R.bind_ok]
  have hdist : Distinct ((([] : List (Val × Val)) ++ (m.filter (fun q => !hides D q.1 q.2.v)).map (fun q => (Val.str (dumpKey D q.1), q.2.d))).map (·.1)) := by
    have := distinct_str (((hp.map (fun q : Field × Trip => dumpKey D q.1)).nodup_iff.2 he).sublist ((List.filter_sublist (p := fun q => !hides D q.1 q.2.v)).map (fun q : Field × Trip => dumpKey D q.1)))
    simpa [List.map_map, Function.comp_def] using this
  refine ⟨_, dumpFields_ok.2 ⟨?_, (m.filter (fun q => !hides D q.1 q.2.v)).map (fun q => (Val.str (dumpKey D q.1), q.2.d)), ?_, rfl⟩, ?_⟩
  · intro f hf
    have : f ∈ ((W.cls c).fields.map (·.name)) := (W.setOrder_perm _).mem_iff.1 hf
    rw [hfs, List.map_map] at this
    obtain ⟨q, hq, rfl⟩ := List.mem_map.1 this
    exact ⟨_, mem_map_name (g := Trip.v) hn hq⟩
  · have hnames : (mkDataDesc W (W.cls c)).fields = m.map (fun q => q.1.name) := ho.symm
    rw [hnames, filter_map_congr (q := fun q => !hides D q.1 q.2.v)]
    · refine zip2_map _ _ _ (fun q hq => ?_)
      have := List.mem_filter.1 hq
      replace this : q ∈ l ∧ _ := ⟨hp.mem_iff.1 this.1, this.2⟩
      have hf : q.1 ∈ (W.cls c).fields := by rw [hfs]; exact List.mem_map.2 ⟨q, this.1, rfl⟩
      refine ⟨by rw [dumpName_eq hnf hf], q.2.v, mem_map_name (g := Trip.v) hn this.1, ?_⟩
      rw [show aget (mkDataDesc W (W.cls c)).hints q.1.name = some q.1.ty from aget_hints_of hnf hf]
      exact hN n hn' q this.1 (by simpa using this.2)
    · intro q hq
      replace hq : q ∈ l := hp.mem_iff.1 hq
      have hf : q.1 ∈ (W.cls c).fields := by rw [hfs]; exact List.mem_map.2 ⟨q, hq, rfl⟩
      rw [mem_map_name (g := Trip.v) hn hq]
      exact congrArg _ (isDefault_hides hnf hf q.2.v)
  · rw [foldl_dset_distinct hdist]; rfl

theorem Writes.attrs (hd : D.Default) {c : Nat} (l : List (Field × Trip)) (hk : (W.cls c).kind = .attrs) (hfs : (W.cls c).fields = l.map (·.1))
    (hn : (l.map (·.1.name)).Nodup) (he : (l.map (dumpKey D ·.1)).Nodup) (hr : ∀ q ∈ l, q.1.repr = true)
    (h : ∀ q ∈ l, hidesAttr D q.1 q.2.v = false → Writes W D q.2.v .any q.2.d) (a : Ty) :
    Writes W D (.inst c (l.map (fun q => (q.1.name, q.2.v)))) a
      (.dict ((l.filter (fun q => !hidesAttr D q.1 q.2.v)).map (fun q => (.str (dumpKey D q.1), q.2.d)))) := by
  refine .step hd (h := .attrs) (by simp [dHandlerOf, typeOf, DConfig.isBasic, hk]) ?_
  obtain ⟨N, hN⟩ := common_fuel h
  refine ⟨N, fun n hn' => ?_⟩
  show ((dumpAttrs D (Ref.dump W D n) _ _ _) >>= _) () = _
  rw [R.bind_ok]
  have hdist : Distinct ((([] : List (Val × Val)) ++ (l.filter (fun q => !hidesAttr D q.1 q.2.v)).map (fun q => (Val.str (dumpKey D q.1), q.2.d))).map (·.1)) := by
    have := distinct_str (he.sublist ((List.filter_sublist (p := fun q => !hidesAttr D q.1 q.2.v)).map (fun q : Field × Trip => dumpKey D q.1)))
    simpa [List.map_map, Function.comp_def] using this
  refine ⟨_, dumpAttrs_ok.2 ⟨?_, (l.filter (fun q => !hidesAttr D q.1 q.2.v)).map (fun q => (Val.str (dumpKey D q.1), q.2.d)), ?_, rfl⟩, ?_⟩
  · intro f hf
    rw [hfs] at hf
    obtain ⟨q, hq, rfl⟩ := List.mem_map.1 hf
    exact ⟨_, mem_map_name (g := Trip.v) hn hq⟩
  · rw [hfs, filter_map_congr (q := fun q => !hidesAttr D q.1 q.2.v)]
    · refine zip2_map _ _ _ (fun q hq => ?_)
      have := List.mem_filter.1 hq
      exact ⟨rfl, q.2.v, mem_map_name (g := Trip.v) hn this.1, hN n hn' q this.1 (by simpa using this.2)⟩
    · intro q hq
      rw [mem_map_name (g := Trip.v) hn hq, hr q hq]
      rfl
  · rw [foldl_dset_distinct hdist]; rfl

theorem Leaf.writes (hd : D.Default) {C : Config} {v : Val} {t : Ty} {d : Val} (h : Leaf W C D v t d) (a : Ty) : Writes W D v a d := by
  have basic : ∀ {v : Val} {p : Prim} (a : Ty), typeOf v = .prim p → p ∈ D.basictypes → Writes W D v a v := by
    intro v p a ht hp
    refine .step hd (h := .identity) ?_ (Ok.pure _)
    unfold dHandlerOf
    rw [ht, if_pos (by simpa [DConfig.isBasic] using hp)]
  cases h with
  | basic ht hp _ => exact basic a ht hp
  | literal ht hp _ => exact basic a ht hp
  | @enum e n x p hm ht hp _ _ =>
    refine .step hd (h := .enum) (by simp [dHandlerOf, typeOf, DConfig.isBasic]) ?_
    simp only [dstep, hm]
    exact basic .any ht hp
  | date hi hv => exact .step hd (h := .date) (by simp [dHandlerOf, typeOf, DConfig.isBasic]) (by simp only [dstep, datetimedump, hi]; exact Ok.pure _)
  | time hi hv => exact .step hd (h := .date) (by simp [dHandlerOf, typeOf, DConfig.isBasic]) (by simp only [dstep, datetimedump, hi]; exact Ok.pure _)
  | datetime hi hv => exact .step hd (h := .date) (by simp [dHandlerOf, typeOf, DConfig.isBasic]) (by simp only [dstep, datetimedump, hi]; exact Ok.pure _)
  | @iso v k hi ht _ =>
    refine .step hd (h := .date) ?_ (by simp only [dstep, datetimedump, hi]; exact Ok.pure _)
    unfold dHandlerOf
    rw [ht, if_neg (by simp [DConfig.isBasic])]
    cases v <;> simp [typeOf] at ht <;> rfl
  | timedelta _ => exact .step hd (h := .timedelta) (by simp [dHandlerOf, typeOf, DConfig.isBasic]) (Ok.pure _)
  | pattern _ _ => exact .step hd (h := .pattern) (by simp [dHandlerOf, typeOf, DConfig.isBasic]) (Ok.pure _)
  | @strcons v c c' ht hc _ _ =>
    refine .step hd (h := .str) ?_ (Ok.pure _)
    unfold dHandlerOf
    rw [ht, if_neg (by simp [DConfig.isBasic])]
    cases v <;> simp [typeOf] at ht
    subst ht
    simp [hc]

end dumping

/-! ## Loading -/

section loading
variable {W : World} {C : Config} {D : DConfig} {Γ : Env}

theorem toCInt_small {i : Int} (h1 : -2147483648 ≤ i) (h2 : i ≤ 2147483647) : toCInt (.int i) = .ok i := by
  show (if -2147483648 ≤ i ∧ i ≤ 2147483647 then Except.ok i else Except.error ExcClass.overflow) = _
  rw [if_pos ⟨h1, h2⟩]

theorem daysInMonth_le (y m : Int) : daysInMonth y m ≤ 31 := by
  unfold daysInMonth
  repeat' split
  all_goals omega

theorem validDate_ranges {y m d : Int} (h : validDate y m d = true) : (1 ≤ y ∧ y ≤ 9999) ∧ (1 ≤ m ∧ m ≤ 12) ∧ (1 ≤ d ∧ d ≤ 31) := by
  unfold validDate at h
  simp only [Bool.and_eq_true, decide_eq_true_eq] at h
  have := daysInMonth_le y m
  omega

theorem validTime_ranges {h mi s us : Int} (hv : validTime h mi s us = true) :
    (0 ≤ h ∧ h ≤ 23) ∧ (0 ≤ mi ∧ mi ≤ 59) ∧ (0 ≤ s ∧ s ≤ 59) ∧ (0 ≤ us ∧ us ≤ 999999) := by
  unfold validTime at hv
  simp only [Bool.and_eq_true, decide_eq_true_eq] at hv
  omega

theorem enumCall_value {e : Nat} {n : String} {x : Val} {p : Prim} (hm : aget (W.enm e).members n = some x) (ht : typeOf x = .prim p)
    (hx : pyEq x x = true) (hu : ∀ q ∈ (W.enm e).members, pyEq q.2 x = true → q.1 = n) : enumCall W e x = some (.enumv e n) := by
  unfold enumCall
  rw [if_neg (by
    intro h
    obtain ⟨q, _, rfl⟩ := List.mem_map.1 h
    simp [typeOf] at ht)]
  cases hf : (W.enm e).members.find? (fun m => pyEq m.2 x) with
  | none =>
    have := List.find?_eq_none.1 hf (n, x) (aget_mem hm)
    simp [hx] at this
  | some q =>
    have h1 := List.mem_of_find?_eq_some hf
    have h2 := List.find?_some hf
    dsimp only
    rw [hu q h1 (by simpa using h2)]

theorem Leaf.yields (hd : C.Default) {v : Val} {t : Ty} {d : Val} (h : Leaf W C D v t d) : Yields W C Γ d t v := by
  cases h with
  | basic ht _ hp => exact .basic hd hp ht
  | literal _ _ hp => exact .lit hd hp
  | enum hm ht _ hx hu => exact .enum hd (enumCall_value hm ht hx hu)
  | @date y m d _ hv =>
    obtain ⟨h1, h2, h3⟩ := validDate_ranges hv
    refine .of_step (pick_dt hd _) ⟨0, fun _ _ => ?_⟩
    simp [Ref.step, ofL, datetimeload, dtParse, pyIter, dtCall, toCInts, toCInt_small (i := y) (by omega) (by omega),
      toCInt_small (i := m) (by omega) (by omega), toCInt_small (i := d) (by omega) (by omega), hv]
  | @time h mi s us _ hv =>
    obtain ⟨h1, h2, h3, h4⟩ := validTime_ranges hv
    refine .of_step (pick_dt hd _) ⟨0, fun _ _ => ?_⟩
    simp [Ref.step, ofL, datetimeload, dtParse, pyIter, dtCall, toCInts, toCInt_small (i := h) (by omega) (by omega),
      toCInt_small (i := mi) (by omega) (by omega), toCInt_small (i := s) (by omega) (by omega), toCInt_small (i := us) (by omega) (by omega), hv]
  | @datetime y m d h mi s us _ hv hv' =>
    obtain ⟨g1, g2, g3⟩ := validDate_ranges hv
    obtain ⟨h1, h2, h3, h4⟩ := validTime_ranges hv'
    refine .of_step (pick_dt hd _) ⟨0, fun _ _ => ?_⟩
    simp [Ref.step, ofL, datetimeload, dtParse, pyIter, dtCall, toCInts, toCInt_small (i := h) (by omega) (by omega),
      toCInt_small (i := mi) (by omega) (by omega), toCInt_small (i := s) (by omega) (by omega), toCInt_small (i := us) (by omega) (by omega),
      toCInt_small (i := y) (by omega) (by omega), toCInt_small (i := m) (by omega) (by omega), toCInt_small (i := d) (by omega) (by omega), hv, hv']
  | iso _ _ hv => exact .of_step (pick_dt hd _) ⟨0, fun _ _ => by simp [Ref.step, ofL, datetimeload, dtParse, hv]⟩
  | timedelta hv => exact .of_step (pick_timedelta hd) ⟨0, fun _ _ => by simp [Ref.step, ofL, timedeltaload, tdSeconds, hv, Except.map]⟩
  | @pattern _ a hs hc =>
    refine .of_step (pick_pattern hd a) ⟨0, fun _ _ => ?_⟩
    have : patCompile W d = .ok (.pattern d) := by
      rcases hs with hs | hs <;> cases d <;> simp [typeOf] at hs <;> simp [patCompile, hc, Except.map]
    simp [Ref.step, ofL, patternload, this]
  | strcons _ _ hc hv => exact .of_step (pick_strcons hd hc) ⟨0, fun _ _ => by simp [Ref.step, ofL, strconstructload, pyCall, hv]⟩

/-- The class handlers of the loader without caches. -/
theorem ref_objhandler (c : Nat) (hcv : (W.cls c).kind = .attrs → ∀ f ∈ (W.cls c).fields, f.conv = none) :
    ∃ info, InfoFor W C c info ∧ (∀ n ∈ info.necessary, ∃ f ∈ (W.cls c).fields, f.name = n ∧ Required (W.cls c).kind f) ∧
      ∀ rec v, Ref.step W C Γ rec (objHandler (W.cls c).kind) v (.obj c) = Ref.objMangled W C rec info v c := by
  cases hk : (W.cls c).kind with
  | namedtuple =>
    refine ⟨_, infoFor_namedtuple hk, ?_, fun rec v => ?_⟩
    · intro n hn
      obtain ⟨f, hf, h1, h2 | h2⟩ := (infoFor_namedtuple (C := C) hk).nec_sub n hn
      · exact ⟨f, hf, h1, by rw [← hk]; exact h2⟩
      · rw [hk] at h2; cases h2.1
    · show Ref.namedtupleload W C rec v (.obj c) = _
      simp only [Ref.namedtupleload, hk, if_true]
      rfl
  | dataclass =>
    refine ⟨_, infoFor_dataclass hk, ?_, fun rec v => ?_⟩
    · intro n hn
      obtain ⟨f, hf, h1, h2 | h2⟩ := (infoFor_dataclass (C := C) hk).nec_sub n hn
      · exact ⟨f, hf, h1, by rw [← hk]; exact h2⟩
      · rw [hk] at h2; cases h2.1
    · show Ref.dataclassload W C rec v (.obj c) = _
      simp only [Ref.dataclassload, hk, if_true]
  | attrs =>
    have : ∃ hints, attrHints (W.cls c).fields = .ok hints := by
      have hcv := hcv hk
      generalize (W.cls c).fields = fs at hcv
      induction fs with
      | nil => exact ⟨_, rfl⟩
      | cons f fs ih =>
        obtain ⟨h, hh⟩ := ih (fun g hg => hcv g (by simp [hg]))
        exact ⟨(f.name, f.ty) :: h, by simp only [attrHints, hcv f (by simp), hh]⟩
    obtain ⟨hints, hh⟩ := this
    refine ⟨_, infoFor_attrs hk hh, ?_, fun rec v => ?_⟩
    · intro n hn
      obtain ⟨f, hf, h1, h2 | h2⟩ := (infoFor_attrs (C := C) hk hh).nec_sub n hn
      · exact ⟨f, hf, h1, by rw [← hk]; exact h2⟩
      · rw [hk] at h2; cases h2.1
    · show Ref.attrload W C rec v (.obj c) = _
      simp only [Ref.attrload, hk, if_true, hh]
  | typeddict =>
    refine ⟨_, infoFor_typeddict hk false, ?_, fun rec v => ?_⟩
    · intro n hn
      simp only [typeddictInfo, List.mem_map, List.mem_filter] at hn
      obtain ⟨f, ⟨hf, h1⟩, h2⟩ := hn
      exact ⟨f, hf, h2, by simpa [Required] using h1⟩
    · show Ref.typeddictload W C rec v (.obj c) = _
      simp only [Ref.typeddictload, hk, if_true]
      rfl

/-- An object is loaded from the data of some of its fields, which include the required ones. -/
theorem Yields.object (hd : C.Default) {c : Nat} (hcv : (W.cls c).kind = .attrs → ∀ f ∈ (W.cls c).fields, f.conv = Option.none)
    (hw : WFNames C (W.cls c).kind (W.cls c).fields) (l : List (Field × Val × Val)) (hs : ∀ q ∈ l, q.1 ∈ (W.cls c).fields)
    (hn : (l.map (fun q => q.1.name)).Nodup) (hy : ∀ q ∈ l, Yields W C Γ q.2.1 q.1.ty q.2.2)
    (hreq : ∀ f ∈ (W.cls c).fields, Required (W.cls c).kind f → f ∈ l.map (·.1)) {r : Val}
    (hc : construct W c (l.map (fun q => (q.1.name, q.2.2))) = .ok r) :
    Yields W C Γ (.dict (l.map (fun q => (.str (extName C (W.cls c).kind q.1), q.2.1)))) (.obj c) r := by
  obtain ⟨info, hi, hnec, he⟩ := ref_objhandler (W := W) (C := C) (Γ := Γ) c hcv
  refine .of_step (pick_obj hd c) ?_
  simp only [he, Ref.objMangled]
  have hm := mangleOrRaise_fields hi hw (l.map (fun q => (q.1, q.2.1)))
    (fun q hq => by obtain ⟨q', hq', rfl⟩ := List.mem_map.1 hq; exact hs q' hq') (by simpa [List.map_map, Function.comp_def] using hn)
  simp only [List.map_map, Function.comp_def] at hm
  refine Ok.bind ⟨0, fun _ _ => hm⟩ ?_
  have ho := Ok.objloader (W := W) (C := C) (Γ := Γ) (info := info) (c := c) (r := r) (l.map (fun q => (q.1.name, q.2.1, q.2.2)))
    (fun q hq => by
      obtain ⟨q', hq', rfl⟩ := List.mem_map.1 hq
      rw [hi.fields]; exact List.mem_map.2 ⟨q'.1, hs q' hq', rfl⟩)
    (fun q hq => by
      obtain ⟨q', hq', rfl⟩ := List.mem_map.1 hq
      have hf := hs q' hq'
      cases ha : aget info.hints q'.1.name with
      | none => have := hi.hints_some _ hf; rw [ha] at this; cases this
      | some t =>
        obtain ⟨f, hf', hnm, hty⟩ := hi.hints _ _ ha
        have : f = q'.1 := nodup_map_inj hw.names hf' hf hnm
        subst this
        refine ⟨t, rfl, ?_⟩
        cases hty with
        | declared _ => exact hy q' hq'
        | converter cv hk hcc => rw [hcv hk _ hf] at hcc; cases hcc
        | untyped cv hk hcc => rw [hcv hk _ hf] at hcc; cases hcc
        | manyHints cv hk hcc => rw [hcv hk _ hf] at hcc; cases hcc)
    (by simpa [List.map_map, Function.comp_def] using hn)
    (fun n hn => by
      obtain ⟨f, hf, rfl, hr⟩ := hnec n hn
      obtain ⟨q, hq, rfl⟩ := List.mem_map.1 (hreq f hf hr)
      exact List.mem_map.2 ⟨_, List.mem_map.2 ⟨q, hq, rfl⟩, rfl⟩)
    (by simpa [List.map_map, Function.comp_def] using hc)
  simpa [List.map_map, Function.comp_def] using ho

/-- The fields of an instance of which some are omitted and have their default. -/
theorem fillFields_hidden (l m : List (Field × Trip)) (hp : m.Perm l) (hid : Field × Trip → Bool) (hn : (l.map (·.1.name)).Nodup)
    (hdef : ∀ q ∈ l, hid q = true → q.1.default = some q.2.r) :
    fillFields ((m.filter (fun q => !hid q)).map (fun q => (q.1.name, q.2.r))) (l.map (·.1)) = .ok (l.map (fun q => (q.1.name, q.2.r))) := by
  have := fillFields_ok (params := (m.filter (fun q => !hid q)).map (fun q => (q.1.name, q.2.r))) (l.map (fun q => (q.1, q.2.r))) (by
    intro q hq
    obtain ⟨q, hq0, rfl⟩ := List.mem_map.1 hq; replace hq := hq0; clear hq0
    have hsub : ((m.filter (fun q => !hid q)).map (fun q => q.1.name)).Nodup :=
      ((hp.map (fun q : Field × Trip => q.1.name)).nodup_iff.2 hn).sublist (List.filter_sublist.map _)
    cases hh : hid q with
    | false =>
      left
      exact aget_of_mem (by rw [List.map_map]; exact hsub) (List.mem_map.2 ⟨q, List.mem_filter.2 ⟨hp.mem_iff.2 hq, by simp [hh]⟩, rfl⟩)
    | true =>
      right
      refine ⟨?_, hdef q hq hh⟩
      cases ha : aget ((m.filter (fun q => !hid q)).map (fun q => (q.1.name, q.2.r))) q.1.name with
      | none => rfl
      | some x =>
        obtain ⟨q', hq', he⟩ := List.mem_map.1 (aget_mem ha)
        simp only [Prod.mk.injEq] at he
        have hm := List.mem_filter.1 hq'
        have : q' = q := nodup_map_inj hn (hp.mem_iff.1 hm.1) hq he.1
        subst this
        simp [hh] at hm)
  simpa [List.map_map, Function.comp_def] using this

/-- An instance is loaded from the data of the fields that are not omitted. -/
theorem Yields.instance (hd : C.Default) {c : Nat} (l m : List (Field × Trip)) (hp : m.Perm l) (hid : Field × Trip → Bool)
    (hcv : (W.cls c).kind = .attrs → ∀ f ∈ (W.cls c).fields, f.conv = Option.none) (hk : (W.cls c).kind ≠ .typeddict)
    (hfs : (W.cls c).fields = l.map (·.1)) (hw : WFNames C (W.cls c).kind (W.cls c).fields)
    (hy : ∀ q ∈ l, hid q = false → Yields W C Γ q.2.d q.1.ty q.2.r) (hdef : ∀ q ∈ l, hid q = true → q.1.default = some q.2.r) {r : Val}
    (hc : construct W c ((m.filter (fun q => !hid q)).map (fun q => (q.1.name, q.2.r))) = .ok r) :
    Yields W C Γ (.dict ((m.filter (fun q => !hid q)).map (fun q => (.str (extName C (W.cls c).kind q.1), q.2.d)))) (.obj c) r := by
  have hn : (l.map (·.1.name)).Nodup := by have := hw.names; rw [hfs, List.map_map] at this; exact this
  have := Yields.object (W := W) (C := C) (Γ := Γ) hd hcv hw ((m.filter (fun q => !hid q)).map (fun q => (q.1, q.2.d, q.2.r)))
    (fun q hq => by
      obtain ⟨q, hq0, rfl⟩ := List.mem_map.1 hq; replace hq := hq0; clear hq0
      rw [hfs]; exact List.mem_map.2 ⟨q, hp.mem_iff.1 (List.mem_filter.1 hq).1, rfl⟩)
    (by rw [List.map_map]; exact ((hp.map (fun q : Field × Trip => q.1.name)).nodup_iff.2 hn).sublist (List.filter_sublist.map _))
    (fun q hq => by
      obtain ⟨q, hq0, rfl⟩ := List.mem_map.1 hq; replace hq := hq0; clear hq0
      have := List.mem_filter.1 hq
      exact hy q (hp.mem_iff.1 this.1) (by simpa using this.2))
    (fun f hf hr => by
      rw [hfs] at hf
      obtain ⟨q, hq, rfl⟩ := List.mem_map.1 hf
      have hnd : q.1.default = Option.none := by
        unfold Required at hr
        revert hr
        cases hkk : (W.cls c).kind with
        | namedtuple => exact id
        | dataclass => exact And.right
        | attrs => exact And.right
        | typeddict => exact absurd hkk hk
      have hh : hid q = false := by
        cases hh : hid q with
        | false => rfl
        | true => have := hdef q hq hh; rw [hnd] at this; cases this
      rw [List.map_map]
      exact List.mem_map.2 ⟨q, List.mem_filter.2 ⟨hp.mem_iff.2 hq, by simp [hh]⟩, rfl⟩)
    (by simpa [List.map_map, Function.comp_def] using hc)
  simpa [List.map_map, Function.comp_def] using this

/-- Values of basic types are written and read as they are. -/
theorem Serial.prim {v d r : Val} {p : Prim} (h : Serial W C D Γ v (.prim p) d r) : d = v ∧ r = v := by
  cases h with
  | leaf hl => cases hl; exact ⟨rfl, rfl⟩

theorem Serial.basic {v d r : Val} {t : Ty} (h : Serial W C D Γ v t d r) (hb : D.isBasic t = true) : d = v := by
  cases t with
  | prim p => exact h.prim.1
  | _ => cases hb

theorem extName_namedtuple {f : Field} : extName C .namedtuple f = f.name := rfl
theorem extName_typeddict {f : Field} : extName C .typeddict f = f.name := rfl
/-- **The name of a field of an attrs class is the same for dump and load.** -/
theorem extName_attrs (hm : D.mangleKey = C.mangleKey) {f : Field} : extName C .attrs f = dumpKey D f := by
  unfold extName renamed dumpKey; rw [hm]
theorem extName_dataclass (hm : D.mangleKey = C.mangleKey) {f : Field} (hf : aget f.metadata D.mangleKey ≠ some "") :
    extName C .dataclass f = dumpKey D f := by
  unfold extName renamed dumpKey
  rw [hm] at hf ⊢
  cases ha : aget f.metadata C.mangleKey with
  | none => simp
  | some n =>
    rw [ha] at hf
    have : n ≠ "" := fun h => hf (by rw [h])
    simp [this]

theorem foldl_pairs {l : List (Val × Val)} (h : Distinct (l.map (·.1))) : l.foldl (fun a q => dset a q.1 q.2) [] = l := by
  simpa using foldl_dset_distinct (l := l) (acc := []) (by simpa using h)

/-- The elements are written, either one by one or, if the annotation says that they are of a basic type, all together. -/
theorem Writes.iterator (hdd : D.Default) {k : SeqKind} (l : List Trip) (a : Ty) (h : ∀ q ∈ l, Writes W D q.v .any q.d)
    (hb : D.isBasic (iterItemTy a) = true → ∀ q ∈ l, q.d = q.v) : Writes W D (.seq k (l.map (·.v))) a (.list (l.map (·.d))) := by
  refine .step hdd (h := .iterator) (by simp [dHandlerOf, typeOf, DConfig.isBasic]) ?_
  show Ok (fun n => iteratordump D (Ref.dump W D n) _ a) _
  simp only [iteratordump]
  refine Ok.ite (fun hc => ?_) (fun _ => Ok.bind (Writes.list l h) (Ok.pure _))
  simp only [Bool.and_eq_true] at hc
  have : l.map (·.d) = l.map (·.v) := List.map_congr_left (fun q hq => hb hc.1 q hq)
  rw [this]; exact Ok.pure _

theorem ref_unionOrder_none {v : Val} {ts : List Ty} (h : v.isDict = true → ¬ ∃ k, ∀ w ∈ ts, HasLiteralField W w k) :
    Ref.unionOrder W C v ts = Pure.pure (preference C ts) := by
  cases v with
  | dict kvs =>
    simp only [Ref.unionOrder]
    cases hm : mkDisc W [] ts with
    | none => rfl
    | some kt => exact absurd ⟨kt.1, (mkDisc_key (table := kt.2) hm).1⟩ (h rfl)
  | _ => rfl

theorem Serial.both (hd : C.Default) (hdd : D.Default) (hu : C.uniondebugconflict = false) (hm : D.mangleKey = C.mangleKey)
    (hnl : W.SteadyTags) (hll : W.LegalLiterals) (hdf : W.DistinctFields) {v : Val} {t : Ty} {d r : Val} (h : Serial W C D Γ v t d r) :
    (∀ a, iterItemTy a = .any ∨ a = t → Writes W D v a d) ∧ Yields W C Γ d t r := by
  induction h with
  | leaf hl => exact ⟨fun a _ => hl.writes hdd a, hl.yields hd⟩
  | any hp =>
    refine ⟨fun a _ => ?_, .any hd _⟩
    obtain ⟨n, hn⟩ := refdump_identity (W := W) hdd hp a
    exact .of_dump hn
  | @coll k et l hpk hs hset ih =>
    refine ⟨fun a ha => Writes.iterator hdd l a (fun q hq => (ih q hq).1 .any (Or.inl rfl)) (fun hb q hq => ?_), ?_⟩
    · rcases ha with ha | ha
      · rw [ha] at hb; cases hb
      · subst ha; exact (hs q hq).basic hb
    · obtain ⟨hh, hpk⟩ := hpk
      refine .coll hd (xs := l.map (·.d)) (ys := l.map (·.r)) rfl rfl hpk (zip2_map l _ _ (fun q hq => ?_)) ?_
      · refine Ok.iterElem hpk (ih q hq).2 (fun p hp _ _ => ?_) (fun ts ht hb hmem => ?_)
        · have := hs q hq; rw [hp] at this; obtain ⟨h1, h2⟩ := this.prim; rw [h1, h2]
        · have := (ih q hq).2
          rw [ht] at this
          exact this.unique (.union_exact hd (List.all_eq_true.1 hb _ hmem) hmem)
      · cases hk : k.isSet with
        | false => rw [foldlM_collAdd_seq hk]; rfl
        | true =>
          obtain ⟨h1, h2⟩ := hset hk
          rw [foldlM_collAdd_set hk _ [] (fun y hy => by obtain ⟨q, hq, rfl⟩ := List.mem_map.1 hy; exact h2 q hq) (by simpa using h1)]; rfl
  | tuple l hs ih =>
    constructor
    · intro a ha
      have := Writes.iterator (W := W) (k := .tuple) hdd (l.map (·.2)) a
        (fun q hq => by obtain ⟨q, hq0, rfl⟩ := List.mem_map.1 hq; exact (ih q hq0).1 .any (Or.inl rfl)) (fun hb q hq => by
          rcases ha with ha | ha
          · rw [ha] at hb; cases hb
          · subst ha
            cases l with
            | nil => cases hq
            | cons q0 l =>
              cases l with
              | nil =>
                simp only [List.map_cons, List.map_nil, List.mem_singleton] at hq
                subst hq
                exact (hs q0 (by simp)).basic hb
              | cons q1 l => cases hb)
      simpa [List.map_map, Function.comp_def, Val.tuple, Val.list] using this
    · refine .tuple hd (xs := l.map (·.2.d)) rfl rfl (by simp) ?_
      have : (l.map (·.2.d)).zip (l.map (·.1)) = l.map (fun q => (q.2.d, q.1)) := by
        rw [List.zip_map', ]
      rw [this]
      refine zip2_map l _ _ (fun q hq => ⟨(ih q hq).2, fun _ hb => ?_⟩)
      cases ht : q.1 with
      | prim p =>
        have := hs q hq
        rw [ht] at this
        obtain ⟨h1, h2⟩ := this.prim
        dsimp only
        rw [h1, h2]
      | _ => dsimp only at hb; rw [ht] at hb; cases hb
  | @dict kt vt l hpk hpv hsk hsv hdk hhk hdr hhr ihk ihv =>
    constructor
    · intro a _
      refine .step hdd (h := .dict) (by simp [dHandlerOf, typeOf, DConfig.isBasic]) ?_
      have := Writes.pairs (W := W) (D := D) (l.map (fun q => (q.1.v, q.1.d, q.2.v, q.2.d)))
        (fun q hq => by obtain ⟨q, hq0, rfl⟩ := List.mem_map.1 hq; exact (ihk q hq0).1 .any (Or.inl rfl))
        (fun q hq => by obtain ⟨q, hq0, rfl⟩ := List.mem_map.1 hq; exact (ihv q hq0).1 .any (Or.inl rfl))
        (fun q hq => by obtain ⟨q, hq0, rfl⟩ := List.mem_map.1 hq; exact hhk q hq0) []
      simp only [List.map_map, Function.comp_def, List.foldl_map] at this
      have hf : l.foldl (fun a q => dset a q.1.d q.2.d) [] = l.map (fun q => (q.1.d, q.2.d)) := by
        have := foldl_pairs (l := l.map (fun q => (q.1.d, q.2.d))) (by rw [List.map_map]; exact hdk)
        rwa [List.foldl_map] at this
      rw [hf] at this
      exact Ok.bind this (Ok.pure _)
    · obtain ⟨h1, hpk⟩ := hpk
      obtain ⟨h2, hpv⟩ := hpv
      have := Yields.dict (Γ := Γ) hd (v := .dict (l.map (fun q => (q.1.d, q.2.d)))) (kvs := l.map (fun q => (q.1.d, q.2.d)))
        (rs := l.map (fun q => (q.1.r, q.2.r))) (Or.inl rfl) hpk hpv (zip2_map l _ _ (fun q hq =>
          ⟨⟨(ihk q hq).2, fun hb => ?_⟩, ⟨(ihv q hq).2, fun hb => ?_⟩, hhr q hq⟩))
      · unfold dictOf at this
        rwa [foldl_pairs (by rw [List.map_map]; exact hdr)] at this
      · obtain ⟨p, hp, _⟩ := hb
        have := hsk q hq
        rw [hp] at this
        obtain ⟨h1, h2⟩ := this.prim
        dsimp only; rw [h1, h2]
      · obtain ⟨p, hp, _⟩ := hb
        have := hsv q hq
        rw [hp] at this
        obtain ⟨h1, h2⟩ := this.prim
        dsimp only; rw [h1, h2]
  | @namedtuple c l hk hfs hn hs hdef ih =>
    refine ⟨fun a _ => Writes.namedtuple hdd l hfs hn (fun q hq hh => (ih q hq hh).1 .any (Or.inl rfl)) a, ?_⟩
    have := Yields.instance (W := W) (C := C) (Γ := Γ) hd (c := c) l l (.refl _) (fun q => hides D q.1 q.2.v) (fun h => by rw [hk] at h; cases h) (by rw [hk]; exact fun h => by cases h)
      hfs ⟨by rw [hfs, List.map_map]; exact hn, by rw [hk, hfs, List.map_map]; exact hn⟩ (fun q hq hh => (ih q hq hh).2) hdef
      (r := .nt c (l.map (fun q => (q.1.name, q.2.r))))
      (by
        unfold construct
        simp only [hk, hfs, fillFields_hidden l l (.refl _) (fun q => hides D q.1 q.2.v) hn hdef, Except.map])
    rw [hk] at this
    exact this
  | @dataclass c l m hpm hom hk hfs hn he hne hi hinit hs hdef ih =>
    have hext : ∀ q ∈ l, extName C .dataclass q.1 = dumpKey D q.1 := fun q hq => extName_dataclass hm (hne q hq)
    refine ⟨fun a _ => Writes.dataclass hdd l m hpm hom hk hfs hn he (fun q hq hh => (ih q hq hh).1 _ (Or.inr rfl)) a, ?_⟩
    have := Yields.instance (W := W) (C := C) (Γ := Γ) hd (c := c) l m hpm (fun q => hides D q.1 q.2.v) (fun h => by rw [hk] at h; cases h) (by rw [hk]; exact fun h => by cases h)
      hfs ⟨by rw [hfs, List.map_map]; exact hn, by
        rw [hk, hfs, List.map_map, show List.map (extName C .dataclass ∘ fun x : Field × Trip => x.1) l = l.map (fun q => dumpKey D q.1) from List.map_congr_left hext]; exact he⟩ (fun q hq hh => (ih q hq hh).2) hdef
      (r := .inst c (l.map (fun q => (q.1.name, q.2.r))))
      (by
        unfold construct
        simp only [hk, hfs, fillFields_hidden l m hpm (fun q => hides D q.1 q.2.v) hn hdef, hinit, Except.map]
        rw [if_pos]
        rw [List.all_eq_true]
        intro p hp
        obtain ⟨q, hq, rfl⟩ := List.mem_map.1 hp
        have hq := hpm.mem_iff.1 (List.mem_filter.1 hq).1
        unfold isInitArg
        rw [List.any_eq_true]
        exact ⟨q.1, by rw [hfs]; exact List.mem_map.2 ⟨q, hq, rfl⟩, by simp [hi q hq, hk]⟩)
    rw [hk, List.map_congr_left (g := fun q => (Val.str (dumpKey D q.1), q.2.d)) (fun q hq => by rw [hext q (hpm.mem_iff.1 (List.mem_filter.1 hq).1)])] at this
    exact this
  | @attrs c l hk hfs hn he hi hinit hs hdef ih =>
    have hext : ∀ q ∈ l, extName C .attrs q.1 = dumpKey D q.1 := fun q _ => extName_attrs hm
    refine ⟨fun a _ => Writes.attrs hdd l hk hfs hn he (fun q hq => (hi q hq).2.2.1) (fun q hq hh => (ih q hq hh).1 _ (Or.inl rfl)) a, ?_⟩
    have := Yields.instance (W := W) (C := C) (Γ := Γ) hd (c := c) l l (.refl _) (fun q => hidesAttr D q.1 q.2.v)
      (fun _ f hf => by rw [hfs] at hf; obtain ⟨q, hq, rfl⟩ := List.mem_map.1 hf; exact (hi q hq).2.1) (by rw [hk]; exact fun h => by cases h)
      hfs ⟨by rw [hfs, List.map_map]; exact hn, by
        rw [hk, hfs, List.map_map, show List.map (extName C .attrs ∘ fun x : Field × Trip => x.1) l = l.map (fun q => dumpKey D q.1) from List.map_congr_left hext]; exact he⟩ (fun q hq hh => (ih q hq hh).2) hdef
      (r := .inst c (l.map (fun q => (q.1.name, q.2.r))))
      (by
        unfold construct
        simp only [hk, hfs, fillFields_hidden l l (.refl _) (fun q => hidesAttr D q.1 q.2.v) hn hdef, hinit, Except.map]
        rw [if_pos]
        rw [List.all_eq_true]
        intro p hp
        obtain ⟨q, hq, rfl⟩ := List.mem_map.1 hp
        have hq := (List.mem_filter.1 hq).1
        unfold isInitArg
        rw [List.any_eq_true]
        exact ⟨q.1, by rw [hfs]; exact List.mem_map.2 ⟨q, hq, rfl⟩, by simp [hi q hq, hk]⟩)
    rw [hk, List.map_congr_left (g := fun q => (Val.str (dumpKey D q.1), q.2.d)) (fun q hq => by rw [hext q (List.mem_filter.1 hq).1])] at this
    exact this
  | @typeddict c l hk hnf hn hmem hreq hstr hs ih =>
    have hds : Distinct (l.map (fun q => Val.str q.1.name)) := by
      have := distinct_str hn
      rwa [List.map_map] at this
    constructor
    · intro a _
      refine .step hdd (h := .dict) (by simp [dHandlerOf, typeOf, DConfig.isBasic]) ?_
      have := Writes.pairs (W := W) (D := D) (l.map (fun q => (Val.str q.1.name, Val.str q.1.name, q.2.v, q.2.d)))
        (fun q hq => by
          obtain ⟨q, hq0, rfl⟩ := List.mem_map.1 hq
          exact (Leaf.basic (W := W) (C := { basictypes := [.str] }) (p := .str) rfl hstr (Or.inl (by simp))).writes hdd .any)
        (fun q hq => by obtain ⟨q, hq0, rfl⟩ := List.mem_map.1 hq; exact (ih q hq0).1 .any (Or.inl rfl))
        (fun q hq => by obtain ⟨q, hq0, rfl⟩ := List.mem_map.1 hq; rfl) []
      simp only [List.map_map, Function.comp_def, List.foldl_map] at this
      have hf : l.foldl (fun a q => dset a (Val.str q.1.name) q.2.d) [] = l.map (fun q => (Val.str q.1.name, q.2.d)) := by
        have := foldl_pairs (l := l.map (fun q => (Val.str q.1.name, q.2.d))) (by rw [List.map_map]; exact hds)
        rwa [List.foldl_map] at this
      rw [hf] at this
      exact Ok.bind this (Ok.pure _)
    · have := Yields.object (W := W) (C := C) (Γ := Γ) hd (c := c) (fun h => by rw [hk] at h; cases h)
        ⟨hnf, by rw [hk]; exact hnf⟩ (l.map (fun q => (q.1, q.2.d, q.2.r)))
        (fun q hq => by obtain ⟨q, hq0, rfl⟩ := List.mem_map.1 hq; exact hmem q hq0) (by rw [List.map_map]; exact hn)
        (fun q hq => by obtain ⟨q, hq0, rfl⟩ := List.mem_map.1 hq; exact (ih q hq0).2)
        (fun f hf hr => by
          rw [hk] at hr
          rw [List.map_map]; exact hreq f hf hr.1 hr.2)
        (r := .dict (l.map (fun q => (.str q.1.name, q.2.r))))
        (by unfold construct; simp only [hk, List.map_map, Function.comp_def])
      rw [hk] at this
      simpa [List.map_map, Function.comp_def, extName_typeddict] using this
  | @newtype n t v d r hs ih => exact ⟨fun a ha => ih.1 a (Or.inl (ha.elim id (fun h => by rw [h]; rfl))), .newtype hd ih.2⟩
  | @fref n t v d r f hΓ hn hs ih => exact ⟨fun a ha => ih.1 a (Or.inl (ha.elim id (fun h => by rw [h]; rfl))), .fref hd hΓ hn ih.2⟩
  | @exact v p ts ht hp hc hmem =>
    refine ⟨fun a _ => (Leaf.basic (W := W) (C := { basictypes := [p] }) ht hp (Or.inl (by simp))).writes hdd a, ?_⟩
    exact .union_exact hd (by rw [ht]; simpa [Config.isBasic] using hc) (by rw [ht]; exact hmem)
  | @untagged v d r u ts us vs hs hnb hdisc hpref href ih =>
    refine ⟨fun a ha => ih.1 a (Or.inl (ha.elim id (fun h => by rw [h]; rfl))), ?_⟩
    refine .union_order hd hu (us := us) (vs := vs) (u := u) ?_ ?_ ih.2 href
    · rintro ⟨hb, hmem⟩
      cases ht : typeOf d with
      | prim p =>
        rw [ht] at hb hmem
        exact hnb p ht (by simpa [Config.isBasic] using hb) hmem
      | _ => rw [ht] at hb; cases hb
    · rw [ref_unionOrder_none hdisc, hpref]
  | @tagged v kvs r u ts hs hdes ih =>
    refine ⟨fun a ha => ih.1 a (Or.inl (ha.elim id (fun h => by rw [h]; rfl))), ?_⟩
    obtain ⟨key, table, h1, h2, h3, h4⟩ := mkDisc_designates hnl.noHidden hll hdf hdes []
    refine .union_order hd hu (us := []) (vs := (preference C ts).erase u) (u := u) ?_ ?_ ih.2 (fun w hw => by cases hw)
    · rintro ⟨hb, _⟩; cases hb
    · unfold tagOf at h3 h4
      simp only [Ref.unionOrder, h1, h2, h3, h4, Bool.false_eq_true, if_false, if_true]
      rfl

end loading

/-! ## What comes back -/

/-- `r` is `v` in which some attributes that are equal to the default of their field are replaced by that default. -/
inductive Restored (W : World) : Val → Val → Prop
  | same {v} : Restored W v v
  | seq {k} (l : List (Val × Val)) : (∀ q ∈ l, Restored W q.1 q.2) → Restored W (.seq k (l.map (·.1))) (.seq k (l.map (·.2)))
  | dict (l : List ((Val × Val) × (Val × Val))) : (∀ q ∈ l, Restored W q.1.1 q.1.2) → (∀ q ∈ l, Restored W q.2.1 q.2.2) →
      Restored W (.dict (l.map (fun q => (q.1.1, q.2.1)))) (.dict (l.map (fun q => (q.1.2, q.2.2))))
  | nt {c} (l : List (Field × Val × Val)) (omitted : Field × Val × Val → Bool) : (W.cls c).fields = l.map (·.1) →
      (∀ q ∈ l, omitted q = false → Restored W q.2.1 q.2.2) →
      (∀ q ∈ l, omitted q = true → q.1.default = some q.2.2 ∧ pyEq q.2.2 q.2.1 = true) →
      Restored W (.nt c (l.map (fun q => (q.1.name, q.2.1)))) (.nt c (l.map (fun q => (q.1.name, q.2.2))))
  | inst {c} (l : List (Field × Val × Val)) (omitted : Field × Val × Val → Bool) : (W.cls c).fields = l.map (·.1) →
      (∀ q ∈ l, omitted q = false → Restored W q.2.1 q.2.2) →
      (∀ q ∈ l, omitted q = true → q.1.default = some q.2.2 ∧ (pyEq q.2.2 q.2.1 = true ∨ pyEq q.2.1 q.2.2 = true)) →
      Restored W (.inst c (l.map (fun q => (q.1.name, q.2.1)))) (.inst c (l.map (fun q => (q.1.name, q.2.2))))

section back
variable {W : World} {C : Config} {D : DConfig} {Γ : Env}

theorem hides_eq {f : Field} {x r : Val} (h : hides D f x = true) (hr : f.default = some r) : pyEq r x = true := by
  unfold hides at h; rw [hr] at h; simp at h; exact h.2
theorem hidesAttr_eq {f : Field} {x r : Val} (h : hidesAttr D f x = true) (hr : f.default = some r) : pyEq x r = true := by
  unfold hidesAttr at h; rw [hr] at h; simp at h; exact h.2

theorem Serial.restored {v : Val} {t : Ty} {d r : Val} (h : Serial W C D Γ v t d r) : Restored W v r := by
  induction h with
  | leaf _ => exact .same
  | any _ => exact .same
  | coll l _ _ _ ih =>
    have := Restored.seq (W := W) (k := ‹SeqKind›) (l.map (fun q => (q.v, q.r))) (fun q hq => by
      obtain ⟨q, hq0, rfl⟩ := List.mem_map.1 hq; exact ih q hq0)
    simpa [List.map_map, Function.comp_def] using this
  | tuple l _ ih =>
    have := Restored.seq (W := W) (k := .tuple) (l.map (fun q => (q.2.v, q.2.r))) (fun q hq => by
      obtain ⟨q, hq0, rfl⟩ := List.mem_map.1 hq; exact ih q hq0)
    simpa [List.map_map, Function.comp_def] using this
  | dict l _ _ _ _ _ _ _ _ ihk ihv =>
    have := Restored.dict (W := W) (l.map (fun q => ((q.1.v, q.1.r), (q.2.v, q.2.r))))
      (fun q hq => by obtain ⟨q, hq0, rfl⟩ := List.mem_map.1 hq; exact ihk q hq0)
      (fun q hq => by obtain ⟨q, hq0, rfl⟩ := List.mem_map.1 hq; exact ihv q hq0)
    simpa [List.map_map, Function.comp_def] using this
  | @namedtuple c l _ hfs _ _ hdef ih =>
    have := Restored.nt (W := W) (c := c) (l.map (fun q => (q.1, q.2.v, q.2.r))) (fun q => hides D q.1 q.2.1) (by rw [hfs, List.map_map]; rfl)
      (fun q hq => by obtain ⟨q, hq0, rfl⟩ := List.mem_map.1 hq; exact ih q hq0)
      (fun q hq hh => by obtain ⟨q, hq0, rfl⟩ := List.mem_map.1 hq; exact ⟨hdef q hq0 hh, hides_eq hh (hdef q hq0 hh)⟩)
    simpa [List.map_map, Function.comp_def] using this
  | @dataclass c l m _ _ _ hfs _ _ _ _ _ _ hdef ih =>
    have := Restored.inst (W := W) (c := c) (l.map (fun q => (q.1, q.2.v, q.2.r))) (fun q => hides D q.1 q.2.1) (by rw [hfs, List.map_map]; rfl)
      (fun q hq => by obtain ⟨q, hq0, rfl⟩ := List.mem_map.1 hq; exact ih q hq0)
      (fun q hq hh => by obtain ⟨q, hq0, rfl⟩ := List.mem_map.1 hq; exact ⟨hdef q hq0 hh, Or.inl (hides_eq hh (hdef q hq0 hh))⟩)
    simpa [List.map_map, Function.comp_def] using this
  | @attrs c l _ hfs _ _ _ _ _ hdef ih =>
    have := Restored.inst (W := W) (c := c) (l.map (fun q => (q.1, q.2.v, q.2.r))) (fun q => hidesAttr D q.1 q.2.1) (by rw [hfs, List.map_map]; rfl)
      (fun q hq => by obtain ⟨q, hq0, rfl⟩ := List.mem_map.1 hq; exact ih q hq0)
      (fun q hq hh => by obtain ⟨q, hq0, rfl⟩ := List.mem_map.1 hq; exact ⟨hdef q hq0 hh, Or.inr (hidesAttr_eq hh (hdef q hq0 hh))⟩)
    simpa [List.map_map, Function.comp_def] using this
  | typeddict l _ _ _ _ _ _ _ ih =>
    have := Restored.dict (W := W) (l.map (fun q => ((Val.str q.1.name, Val.str q.1.name), (q.2.v, q.2.r))))
      (fun q hq => by obtain ⟨q, hq0, rfl⟩ := List.mem_map.1 hq; exact .same)
      (fun q hq => by obtain ⟨q, hq0, rfl⟩ := List.mem_map.1 hq; exact ih q hq0)
    simpa [List.map_map, Function.comp_def] using this
  | newtype _ ih => exact ih
  | fref _ _ _ _ ih => exact ih
  | «exact» _ _ _ _ => exact .same
  | untagged _ _ _ _ _ ih => exact ih
  | tagged _ _ ih => exact ih

theorem hides_off (h : D.hidedefault = false) (f : Field) (x : Val) : hides D f x = false := by simp [hides, h]
theorem hidesAttr_off (h : D.hidedefault = false) (f : Field) (x : Val) : hidesAttr D f x = false := by simp [hidesAttr, h]

theorem Serial.same (h0 : D.hidedefault = false) {v : Val} {t : Ty} {d r : Val} (h : Serial W C D Γ v t d r) : r = v := by
  induction h with
  | leaf _ => rfl
  | any _ => rfl
  | coll l _ _ _ ih => rw [List.map_congr_left (fun q hq => ih q hq)]
  | tuple l _ ih => rw [List.map_congr_left (fun q hq => ih q hq)]
  | dict l _ _ _ _ _ _ _ _ ihk ihv => rw [List.map_congr_left (fun q hq => by rw [ihk q hq, ihv q hq])]
  | namedtuple l _ _ _ _ _ ih => rw [List.map_congr_left (fun q hq => by rw [ih q hq (hides_off h0 _ _)])]
  | dataclass l m _ _ _ _ _ _ _ _ _ _ _ ih => rw [List.map_congr_left (fun q hq => by rw [ih q hq (hides_off h0 _ _)])]
  | attrs l _ _ _ _ _ _ _ _ ih => rw [List.map_congr_left (fun q hq => by rw [ih q hq (hidesAttr_off h0 _ _)])]
  | typeddict l _ _ _ _ _ _ _ ih => rw [List.map_congr_left (fun q hq => by rw [ih q hq])]
  | newtype _ ih => exact ih
  | fref _ _ _ _ ih => exact ih
  | «exact» _ _ _ _ => rfl
  | untagged _ _ _ _ _ ih => exact ih
  | tagged _ _ ih => exact ih

/-! ## The theorems -/

/-- **C43** (both settings of hidedefault) A value of the type `t` (see `Serial` for the types and values covered) is written as `d` by any
Dumper, whatever it did before, with or without the annotation, and any Loader, whatever it did before, loads `d` into `t` as a value that is
equal to the original: an attribute omitted by hidedefault comes back as the default it was equal to. -/
theorem C43_round_trip (hd : C.Default) (hdd : D.Default) (hu : C.uniondebugconflict = false) (hm : D.mangleKey = C.mangleKey)
    (h1 : W.NotRequiredLaw) (hnl : W.SteadyTags) (hll : W.LegalLiterals) (hdf : W.DistinctFields)
    {sd : DState} (hsd : DReachable W D sd) {s : LState} (hs : Reachable W C s) {v : Val} {t : Ty} {d r : Val} (hv : Legal W v)
    (h : Serial W C D Γ v t d r) (hn : SameNames W Γ (namesIn W s t) t) (hst : Steady W C Γ d t) :
    (∃ sd', Dumps W D sd v .any d sd') ∧ (∃ sd', Dumps W D sd v t d sd') ∧ (∃ s', Loads W C s d t r s') ∧ Restored W v r := by
  obtain ⟨hw, hy⟩ := h.both hd hdd hu hm hnl hll hdf
  refine ⟨?_, ?_, hy.loads hd h1 hnl hs hn hst, h.restored⟩
  · exact (dumps_ref hdd hsd hv _ _).2 (hw .any (Or.inl rfl)).exists
  · exact (dumps_ref hdd hsd hv _ _).2 (hw t (Or.inr rfl)).exists

/-- **C42** Without hidedefault the value that comes back is the original. -/
theorem C42_round_trip (hd : C.Default) (hdd : D.Default) (hu : C.uniondebugconflict = false) (hm : D.mangleKey = C.mangleKey)
    (h0 : D.hidedefault = false) (h1 : W.NotRequiredLaw) (hnl : W.SteadyTags) (hll : W.LegalLiterals) (hdf : W.DistinctFields)
    {sd : DState} (hsd : DReachable W D sd) {s : LState} (hs : Reachable W C s) {v : Val} {t : Ty} {d r : Val} (hv : Legal W v)
    (h : Serial W C D Γ v t d r) (hn : SameNames W Γ (namesIn W s t) t) (hst : Steady W C Γ d t) :
    (∃ sd', Dumps W D sd v .any d sd') ∧ (∃ sd', Dumps W D sd v t d sd') ∧ ∃ s', Loads W C s d t v s' := by
  have hr := h.same h0
  subst hr
  obtain ⟨a, b, c, _⟩ := C43_round_trip hd hdd hu hm h1 hnl hll hdf hsd hs hv h hn hst
  exact ⟨a, b, c⟩

end back

end TL
