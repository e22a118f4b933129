import Verif.Props.RoundTrip
import Verif.Props.Terminates
import Verif.Props.Lax
/-!
# C42, C43: values of given types

The round trip stated with a predicate on values and types only (no mention of the written data).
-/

namespace TL

/-- The attribute (or key) `k` of `v` is `x`. -/
inductive HasAttr : Val → String → Val → Prop
  | inst {c fs k x} : (k, x) ∈ fs → HasAttr (.inst c fs) k x
  | nt {c fs k x} : (k, x) ∈ fs → HasAttr (.nt c fs) k x
  | key {kvs k x} : (.str k, x) ∈ kvs → HasAttr (.dict kvs) k x

section
variable (W : World) (C : Config) (D : DConfig) (Γ : Env)

/-- The tag of `v` says that it is an instance of the member `u` of a union of classes: in all the Literal fields that are common to all
members, `v` has a literal of `u` that is a literal of no other member.  Members declare their Literal fields themselves; these fields are written by the Dumper: they are not renamed, and they
have no default or hidedefault is disabled. -/
structure Tells (v : Val) (ts : List Ty) (u : Ty) : Prop where
  mem : u ∈ ts
  own : ∀ w ∈ ts, OwnLiterals W w
  common : ∃ k, ∀ w ∈ ts, HasLiteralField W w k
  tag : ∀ k, (∀ w ∈ ts, HasLiteralField W w k) → ∃ x, HasAttr v k x ∧ (∃ l, LiteralField W u k l ∧ pyEq l x = true) ∧
    ∀ w ∈ ts, w ≠ u → ∀ l, LiteralField W w k l → pyEq l x = false
  written : ∀ c f, u = .obj c → f ∈ (W.cls c).fields → (∀ w ∈ ts, HasLiteralField W w f.name) →
    dumpKey D f = f.name ∧ (f.default = none ∨ D.hidedefault = false)

/-- The types whose values are written as lists or dictionaries. -/
inductive Compound (Γ : Env) : Ty → Prop
  | obj {c} : Compound Γ (.obj c)
  | coll {k u} : Compound Γ (.coll k u)
  | tuple {us} : Compound Γ (.tuple us)
  | dict {k u} : Compound Γ (.dict k u)
  | newtype {n u} : Compound Γ u → Compound Γ (.newtype n u)
  | fref {n u} (f : String → Option Ty) : Γ = some f → f n = some u → Compound Γ u → Compound Γ (.fref n)

/-- `v` is a value of the type `t`. -/
inductive Fits : Val → Ty → Prop
  | leaf {v t d} : Leaf W C D v t d → Fits v t
  | any {v} : Plain (· ∈ D.basictypes) v → Fits v .any
  /-- List, Tuple[t, ...] -/
  | coll {k et xs h} : k.isSet = false → pick W C et = .ok h → (∀ x ∈ xs, Fits x et) → Fits (.seq k xs) (.coll k et)
  /-- Set, FrozenSet -/
  | set {k et xs h} : k.isSet = true → pick W C et = .ok h → (∀ x ∈ xs, ∃ d, Leaf W C D x et d) → Distinct xs → (∀ x ∈ xs, W.hash x = true) →
      Fits (.seq k xs) (.coll k et)
  | tuple (l : List (Ty × Val)) : (∀ q ∈ l, Fits q.2 q.1) → Fits (.tuple (l.map (·.2))) (.tuple (l.map (·.1)))
  /-- the keys are of a basic type -/
  | dict {p vt h} (l : List (Val × Val)) : p ∈ D.basictypes → p ∈ C.basictypes → pick W C vt = .ok h → (∀ q ∈ l, typeOf q.1 = .prim p) →
      (∀ q ∈ l, Fits q.2 vt) → Distinct (l.map (·.1)) → Fits (.dict l) (.dict (.prim p) vt)
  | namedtuple {c} (l : List (Field × Val)) : (W.cls c).kind = .namedtuple → (W.cls c).fields = l.map (·.1) →
      (l.map (·.1.name)).Nodup → (∀ q ∈ l, Fits q.2 q.1.ty) → Fits (.nt c (l.map (fun q => (q.1.name, q.2)))) (.obj c)
  /-- all fields are arguments of `__init__`, which only stores them; external names are distinct and not empty -/
  | dataclass {c} (l : List (Field × Val)) : (W.cls c).kind = .dataclass → (W.cls c).fields = l.map (·.1) →
      (l.map (·.1.name)).Nodup → (l.map (dumpKey D ·.1)).Nodup → (∀ q ∈ l, aget q.1.metadata D.mangleKey ≠ some "") →
      (∀ q ∈ l, q.1.init = true) → (∀ fs, W.initHook c fs = .ok fs) → (∀ q ∈ l, Fits q.2 q.1.ty) →
      Fits (.inst c (l.map (fun q => (q.1.name, q.2)))) (.obj c)
  /-- the same, without converters, private attributes and `repr=False` -/
  | attrs {c} (l : List (Field × Val)) : (W.cls c).kind = .attrs → (W.cls c).fields = l.map (·.1) →
      (l.map (·.1.name)).Nodup → (l.map (dumpKey D ·.1)).Nodup →
      (∀ q ∈ l, q.1.init = true ∧ q.1.conv = none ∧ q.1.repr = true ∧ q.1.name.toList.head? ≠ some '_') →
      (∀ fs, W.initHook c fs = .ok fs) → (∀ q ∈ l, Fits q.2 q.1.ty) →
      Fits (.inst c (l.map (fun q => (q.1.name, q.2)))) (.obj c)
  | typeddict {c} (l : List (Field × Val)) : (W.cls c).kind = .typeddict → ((W.cls c).fields.map (·.name)).Nodup → (l.map (·.1.name)).Nodup →
      (∀ q ∈ l, q.1 ∈ (W.cls c).fields) → (∀ f ∈ (W.cls c).fields, f.required = true → f.notRequired = false → f ∈ l.map (·.1)) →
      .str ∈ D.basictypes → (∀ q ∈ l, Fits q.2 q.1.ty) → Fits (.dict (l.map (fun q => (.str q.1.name, q.2)))) (.obj c)
  | newtype {n t v} : Fits v t → Fits v (.newtype n t)
  | fref {n t v} (f : String → Option Ty) : Γ = some f → f n = some t → Fits v t → Fits v (.fref n)
  /-- a value of a basic type that is a member of the union, None included -/
  | exact {v p ts} : typeOf v = .prim p → p ∈ D.basictypes → p ∈ C.basictypes → .prim p ∈ ts → Fits v (.union ts)
  /-- the member that is tried first (for instance in Optional[u]), unless the members have a Literal field in common -/
  | first {v u ts us} : Compound Γ u → preference C ts = u :: us → (¬ ∃ k, ∀ w ∈ ts, HasLiteralField W w k) → Fits v u → Fits v (.union ts)
  /-- a union of classes told apart by a Literal field -/
  | tagged {v u ts} : Fits v u → Tells W D v ts u → Fits v (.union ts)
end

variable {W : World} {C : Config} {D : DConfig} {Γ : Env}

/-- Pick a way for every element. -/
theorem trips {α : Type} {P : α → Trip → Prop} {l : List α} (h : ∀ x ∈ l, ∃ q, P x q) : ∃ m : List (α × Trip), m.map (·.1) = l ∧ ∀ q ∈ m, P q.1 q.2 := by
  induction l with
  | nil => exact ⟨[], rfl, fun _ h => by cases h⟩
  | cons x l ih =>
    obtain ⟨m, h1, h2⟩ := ih (fun y hy => h y (by simp [hy]))
    obtain ⟨q, hq⟩ := h x (by simp)
    refine ⟨(x, q) :: m, by simp [h1], fun p hp => ?_⟩
    rcases List.mem_cons.1 hp with rfl | hp
    · exact hq
    · exact h2 p hp

theorem compound_data {v : Val} {u : Ty} {d r : Val} (hu : Compound Γ u) (h : Serial W C D Γ v u d r) : ∀ p, typeOf d ≠ .prim p := by
  intro p hp
  induction hu generalizing v d r with
  | newtype _ ih => cases h with
    | leaf hl => cases hl
    | newtype h => exact ih h hp
  | fref f hΓ hf _ ih => cases h with
    | leaf hl => cases hl
    | fref f' hΓ' hf' h =>
      rw [hΓ] at hΓ'; cases hΓ'
      rw [hf] at hf'; cases hf'
      exact ih h hp
  | _ => cases h with
    | leaf hl => cases hl
    | _ => simp [typeOf] at hp

theorem strKeys_map {α : Type} (l : List α) (g : α → String) (d : α → Val) : strKeys (l.map (fun q => (Val.str (g q), d q))) = l.map g := by
  unfold strKeys
  induction l with
  | nil => rfl
  | cons a l ih => rw [List.map_cons, List.filterMap_cons]; show g a :: _ = _; rw [ih]; rfl

theorem sublist_nodup {α β : Type} {l : List α} {g : α → β} (p : α → Bool) (h : (l.map g).Nodup) : ((l.filter p).map g).Nodup :=
  (List.filter_sublist.map g).nodup h

/-- The tag is written as it is. -/
theorem Serial.tag {v : Val} {c : Nat} {d r : Val} {f : Field} {vs : List Val} {x : Val} (h : Serial W C D Γ v (.obj c) d r)
    (hf : f ∈ (W.cls c).fields) (hty : f.ty = .lit vs) (hkey : dumpKey D f = f.name) (hdef : f.default = none ∨ D.hidedefault = false)
    (hx : HasAttr v f.name x) : ∃ kvs, d = .dict kvs ∧ dget kvs (.str f.name) = some x := by
  have hl : ∀ {d r}, Serial W C D Γ x (.lit vs) d r → d = x := by
    intro d r h
    cases h with
    | leaf h => cases h; rfl
  have hh : ∀ x, hides D f x = false := by
    intro x; unfold hides; rcases hdef with h | h <;> simp [h]
  have hh' : ∀ x, hidesAttr D f x = false := by
    intro x; unfold hidesAttr; rcases hdef with h | h <;> simp [h]
  have same : ∀ (fs : List Field) (g : Field), (fs.map (·.name)).Nodup → f ∈ fs → g ∈ fs → g.name = f.name → g = f := by
    intro fs g hn h1 h2 he
    exact nodup_map_inj hn h2 h1 he
  cases h with
  | leaf h => cases h
  | namedtuple l hk hfs hn hs _ =>
    cases hx with
    | nt hx =>
      obtain ⟨q, hq, he⟩ := List.mem_map.1 hx
      simp only [Prod.mk.injEq] at he
      have hqf : q.1 = f := same _ _ (by rw [List.map_map]; exact hn) (hfs ▸ hf) (List.mem_map.2 ⟨q, hq, rfl⟩) he.1
      have hw := hs q hq (by rw [hqf]; exact hh _)
      rw [hqf, hty, he.2] at hw
      refine ⟨_, rfl, dget_of_mem_str ?_ (List.mem_map.2 ⟨q, List.mem_filter.2 ⟨hq, by rw [hqf, hh]; rfl⟩, by rw [hqf, hl hw]⟩)⟩
      rw [strKeys_map]
      exact sublist_nodup _ hn
  | dataclass l m hpm _ hk hfs hn he _ _ _ hs _ =>
    cases hx with
    | inst hx =>
      obtain ⟨q, hq, he'⟩ := List.mem_map.1 hx
      simp only [Prod.mk.injEq] at he'
      have hqf : q.1 = f := same _ _ (by rw [List.map_map]; exact hn) (hfs ▸ hf) (List.mem_map.2 ⟨q, hq, rfl⟩) he'.1
      have hw := hs q hq (by rw [hqf]; exact hh _)
      rw [hqf, hty, he'.2] at hw
      refine ⟨_, rfl, dget_of_mem_str ?_ (List.mem_map.2 ⟨q, List.mem_filter.2 ⟨hpm.mem_iff.2 hq, by rw [hqf, hh]; rfl⟩, by rw [hqf, hkey, hl hw]⟩)⟩
      rw [strKeys_map]
      exact sublist_nodup _ ((hpm.map (fun q => dumpKey D q.1)).nodup_iff.2 he)
  | attrs l hk hfs hn he _ _ hs _ =>
    cases hx with
    | inst hx =>
      obtain ⟨q, hq, he'⟩ := List.mem_map.1 hx
      simp only [Prod.mk.injEq] at he'
      have hqf : q.1 = f := same _ _ (by rw [List.map_map]; exact hn) (hfs ▸ hf) (List.mem_map.2 ⟨q, hq, rfl⟩) he'.1
      have hw := hs q hq (by rw [hqf]; exact hh' _)
      rw [hqf, hty, he'.2] at hw
      refine ⟨_, rfl, dget_of_mem_str ?_ (List.mem_map.2 ⟨q, List.mem_filter.2 ⟨hq, by rw [hqf, hh']; rfl⟩, by rw [hqf, hkey, hl hw]⟩)⟩
      rw [strKeys_map]
      exact sublist_nodup _ he
  | typeddict l hk hnf hn hm _ _ hs =>
    cases hx with
    | key hx =>
      obtain ⟨q, hq, he⟩ := List.mem_map.1 hx
      simp only [Prod.mk.injEq, Val.str.injEq] at he
      have hqf : q.1 = f := same _ _ hnf hf (hm q hq) he.1
      have hw := hs q hq
      rw [hqf, hty, he.2] at hw
      refine ⟨_, rfl, dget_of_mem_str ?_ (List.mem_map.2 ⟨q, hq, by rw [hqf, hl hw]⟩)⟩
      rw [strKeys_map]
      exact hn

/-- The values of a type are written in some way. -/
theorem Fits.serial {v : Val} {t : Ty} (hd : C.Default) (h : Fits W C D Γ v t) : ∃ d r, Serial W C D Γ v t d r := by
  have obj : ∀ {l : List (Field × Val)} (hid : Field → Val → Bool), (∀ f x, hid f x = true → ∃ r, f.default = some r) →
      (∀ q ∈ l, ∃ d r, Serial W C D Γ q.2 q.1.ty d r) →
      ∃ m : List (Field × Trip), m.map (fun q => (q.1, q.2.v)) = l ∧
        (∀ q ∈ m, hid q.1 q.2.v = false → Serial W C D Γ q.2.v q.1.ty q.2.d q.2.r) ∧ (∀ q ∈ m, hid q.1 q.2.v = true → q.1.default = some q.2.r) := by
    intro l hid hdef h
    induction l with
    | nil => exact ⟨[], rfl, fun _ h => (by cases h), fun _ h => (by cases h)⟩
    | cons p l ih =>
      obtain ⟨m, h1, h2, h3⟩ := ih (fun y hy => h y (by simp [hy]))
      obtain ⟨d, r, hs⟩ := h p (by simp)
      cases hh : hid p.1 p.2 with
      | false =>
        refine ⟨(p.1, ⟨p.2, d, r⟩) :: m, by simp [h1], fun q hq hb => ?_, fun q hq hb => ?_⟩
        · rcases List.mem_cons.1 hq with rfl | hq
          · exact hs
          · exact h2 q hq hb
        · rcases List.mem_cons.1 hq with rfl | hq
          · rw [hh] at hb; cases hb
          · exact h3 q hq hb
      | true =>
        obtain ⟨r', hr'⟩ := hdef _ _ hh
        refine ⟨(p.1, ⟨p.2, d, r'⟩) :: m, by simp [h1], fun q hq hb => ?_, fun q hq hb => ?_⟩
        · rcases List.mem_cons.1 hq with rfl | hq
          · rw [hh] at hb; cases hb
          · exact h2 q hq hb
        · rcases List.mem_cons.1 hq with rfl | hq
          · exact hr'
          · exact h3 q hq hb
  have hd1 : ∀ f x, hides D f x = true → ∃ r, f.default = some r := by
    intro f x h
    unfold hides at h
    cases hf : f.default with
    | none => rw [hf] at h; simp at h
    | some r => exact ⟨r, rfl⟩
  have hd2 : ∀ f x, hidesAttr D f x = true → ∃ r, f.default = some r := by
    intro f x h
    unfold hidesAttr at h
    cases hf : f.default with
    | none => rw [hf] at h; simp at h
    | some r => exact ⟨r, rfl⟩
  induction h with
  | leaf hl => exact ⟨_, _, .leaf hl⟩
  | any hp => exact ⟨_, _, .any hp⟩
  | @coll k et xs h hk hp _ ih =>
    obtain ⟨m, h1, h2⟩ := trips (P := fun x q => q.v = x ∧ Serial W C D Γ q.v et q.d q.r) (l := xs)
      (fun x hx => by obtain ⟨d, r, hs⟩ := ih x hx; exact ⟨⟨x, d, r⟩, rfl, hs⟩)
    have := Serial.coll (W := W) (C := C) (D := D) (Γ := Γ) (k := k) (et := et) (m.map (·.2)) ⟨_, hp⟩
      (fun q hq => by obtain ⟨p, hp0, rfl⟩ := List.mem_map.1 hq; exact (h2 p hp0).2) (fun hs => by rw [hk] at hs; cases hs)
    have e : (m.map (·.2)).map (·.v) = xs := by
      rw [List.map_map, ← h1]; exact List.map_congr_left (fun p hp0 => (h2 p hp0).1)
    rw [e] at this
    exact ⟨_, _, this⟩
  | @set k et xs h hk hp hl hdis hh =>
    obtain ⟨m, h1, h2⟩ := trips (P := fun x q => (q.v = x ∧ q.r = x) ∧ Leaf W C D q.v et q.d) (l := xs)
      (fun x hx => by obtain ⟨d, hs⟩ := hl x hx; exact ⟨⟨x, d, x⟩, ⟨rfl, rfl⟩, hs⟩)
    have e : (m.map (·.2)).map (·.v) = xs := by
      rw [List.map_map, ← h1]; exact List.map_congr_left (fun p hp0 => (h2 p hp0).1.1)
    have e' : (m.map (·.2)).map (·.r) = xs := by
      rw [List.map_map, ← h1]; exact List.map_congr_left (fun p hp0 => (h2 p hp0).1.2)
    have := Serial.coll (W := W) (C := C) (D := D) (Γ := Γ) (k := k) (et := et) (m.map (·.2)) ⟨_, hp⟩
      (fun q hq => by
        obtain ⟨p, hp0, rfl⟩ := List.mem_map.1 hq
        obtain ⟨⟨a, b⟩, c⟩ := h2 p hp0
        rw [b, ← a]; exact .leaf c)
      (fun _ => ⟨by rw [e']; exact hdis, fun q hq => by
        obtain ⟨p, hp0, rfl⟩ := List.mem_map.1 hq
        rw [(h2 p hp0).1.2]
        exact hh _ (by rw [← h1]; exact List.mem_map.2 ⟨p, hp0, rfl⟩)⟩)
    rw [e] at this
    exact ⟨_, _, this⟩
  | tuple l _ ih =>
    obtain ⟨m, h1, h2⟩ := trips (P := fun x q => q.v = x.2 ∧ Serial W C D Γ q.v x.1 q.d q.r) (l := l)
      (fun x hx => by obtain ⟨d, r, hs⟩ := ih x hx; exact ⟨⟨x.2, d, r⟩, rfl, hs⟩)
    have := Serial.tuple (W := W) (C := C) (D := D) (Γ := Γ) (m.map (fun q => (q.1.1, q.2)))
      (fun q hq => by obtain ⟨p, hp0, rfl⟩ := List.mem_map.1 hq; exact (h2 p hp0).2)
    have e : (m.map (fun q => (q.1.1, q.2))).map (·.2.v) = l.map (·.2) := by
      rw [List.map_map, ← h1, List.map_map]; exact List.map_congr_left (fun p hp0 => (h2 p hp0).1)
    have e' : (m.map (fun q => (q.1.1, q.2))).map (·.1) = l.map (·.1) := by
      rw [List.map_map, ← h1, List.map_map]; rfl
    rw [e, e'] at this
    exact ⟨_, _, this⟩
  | @dict p vt h l hpd hpc hp hk _ hdis ih =>
    obtain ⟨m, h1, h2⟩ := trips (P := fun x q => q.v = x.2 ∧ Serial W C D Γ q.v vt q.d q.r) (l := l)
      (fun x hx => by obtain ⟨d, r, hs⟩ := ih x hx; exact ⟨⟨x.2, d, r⟩, rfl, hs⟩)
    have hmem : ∀ q ∈ m, q.1 ∈ l := fun q hq => by rw [← h1]; exact List.mem_map.2 ⟨q, hq, rfl⟩
    have hkey : ∀ q ∈ m, Leaf W C D q.1.1 (.prim p) q.1.1 := fun q hq => .basic (hk _ (hmem q hq)) hpd (Or.inl hpc)
    have hpk : ∃ h, pick W C (.prim p) = .ok h := by
      by_cases hn : p = .none
      · subst hn; exact ⟨_, pick_none hd⟩
      · exact ⟨_, pick_basic hd hpc hn⟩
    have hhash : ∀ q ∈ m, W.hash q.1.1 = true := fun q hq => by
      have := hk _ (hmem q hq)
      revert this
      cases q.1.1 <;> simp [typeOf, World.hash, hashable]
    have hdk : Distinct (m.map (fun q => q.1.1)) := by
      have := hdis; rw [← h1, List.map_map] at this; exact this
    have := Serial.dict (W := W) (C := C) (D := D) (Γ := Γ) (kt := .prim p) (vt := vt) (m.map (fun q => (⟨q.1.1, q.1.1, q.1.1⟩, q.2))) hpk ⟨_, hp⟩
      (fun q hq => by obtain ⟨q, hq0, rfl⟩ := List.mem_map.1 hq; exact .leaf (hkey q hq0))
      (fun q hq => by obtain ⟨q, hq0, rfl⟩ := List.mem_map.1 hq; exact (h2 q hq0).2)
      (by rw [List.map_map]; exact hdk)
      (fun q hq => by obtain ⟨q, hq0, rfl⟩ := List.mem_map.1 hq; exact hhash q hq0)
      (by rw [List.map_map]; exact hdk)
      (fun q hq => by obtain ⟨q, hq0, rfl⟩ := List.mem_map.1 hq; exact hhash q hq0)
    have e : (m.map (fun q => ((⟨q.1.1, q.1.1, q.1.1⟩ : Trip), q.2))).map (fun q => (q.1.v, q.2.v)) = l := by
      rw [List.map_map]
      refine Eq.trans (List.map_congr_left (fun q hq => ?_)) h1
      show (q.1.1, q.2.v) = q.1
      rw [(h2 q hq).1]
    rw [e] at this
    exact ⟨_, _, this⟩
  | @namedtuple c l hk hfs hn _ ih =>
    obtain ⟨m, h1, h2, h3⟩ := obj (l := l) (hides D) hd1 ih
    subst h1
    simp only [List.map_map, Function.comp_def] at hfs hn ⊢
    exact ⟨_, _, .namedtuple m hk hfs hn h2 h3⟩
  | @dataclass c l hk hfs hn he hne hi hinit _ ih =>
    obtain ⟨m, h1, h2, h3⟩ := obj (l := l) (hides D) hd1 ih
    subst h1
    simp only [List.map_map, Function.comp_def, List.forall_mem_map] at hfs hn he hne hi ⊢
    obtain ⟨m', hp, ho⟩ := perm_map_exists (W.setOrder_perm ((W.cls c).fields.map (·.name))) (l := m) (f := fun q => q.1.name)
      (by rw [hfs, List.map_map]; rfl)
    exact ⟨_, _, .dataclass m m' hp ho hk hfs hn he hne hi (hinit _) h2 h3⟩
  | @attrs c l hk hfs hn he hi hinit _ ih =>
    obtain ⟨m, h1, h2, h3⟩ := obj (l := l) (hidesAttr D) hd2 ih
    subst h1
    simp only [List.map_map, Function.comp_def, List.forall_mem_map] at hfs hn he hi ⊢
    exact ⟨_, _, .attrs m hk hfs hn he hi (hinit _) h2 h3⟩
  | @typeddict c l hk hnf hn hmem hreq hstr _ ih =>
    obtain ⟨m, h1, h2, _⟩ := obj (l := l) (fun _ _ => false) (fun _ _ h => by cases h) ih
    subst h1
    simp only [List.map_map, Function.comp_def, List.forall_mem_map] at hn hmem hreq ⊢
    exact ⟨_, _, .typeddict m hk hnf hn hmem hreq hstr (fun q hq => h2 q hq rfl)⟩
  | newtype _ ih => obtain ⟨d, r, hs⟩ := ih; exact ⟨d, r, .newtype hs⟩
  | fref f hΓ hf _ ih => obtain ⟨d, r, hs⟩ := ih; exact ⟨d, r, .fref f hΓ hf hs⟩
  | «exact» h1 h2 h3 h4 => exact ⟨_, _, .exact h1 h2 h3 h4⟩
  | @first v u ts us hu hp hc _ ih =>
    obtain ⟨d, r, hs⟩ := ih
    exact ⟨d, r, .untagged (us := []) hs (fun p hp => absurd hp (compound_data hu hs p)) (fun _ => hc) hp (fun w hw => by cases hw)⟩
  | @tagged v u ts _ ht ih =>
    obtain ⟨d, r, hs⟩ := ih
    have tagd : ∀ k, (∀ w ∈ ts, HasLiteralField W w k) → ∃ kvs x, d = .dict kvs ∧ dget kvs (.str k) = some x ∧
        (∃ l, LiteralField W u k l ∧ pyEq l x = true) ∧ ∀ w ∈ ts, w ≠ u → ∀ l, LiteralField W w k l → pyEq l x = false := by
      intro k hk
      obtain ⟨x, hx, h1, h2⟩ := ht.tag k hk
      obtain ⟨c, f, vs, rfl, hf, rfl, hty⟩ := hk u ht.mem
      obtain ⟨h3, h4⟩ := ht.written c f rfl hf hk
      obtain ⟨kvs, rfl, hg⟩ := hs.tag hf hty h3 h4 hx
      exact ⟨kvs, x, rfl, hg, h1, h2⟩
    obtain ⟨k0, hk0⟩ := ht.common
    obtain ⟨kvs, _, rfl, _⟩ := tagd k0 hk0
    refine ⟨_, r, .tagged hs ⟨⟨ht.mem, ht.common, fun k hk => ?_, fun k hk w hw hne l hl => ?_⟩, ht.own⟩⟩
    · obtain ⟨kvs', x, he, hg, h1, _⟩ := tagd k hk
      cases he
      unfold tagOf; rw [hg]; exact h1
    · obtain ⟨kvs', x, he, hg, _, h2⟩ := tagd k hk
      cases he
      unfold tagOf; rw [hg]; exact h2 w hw hne l hl

/-! ## No trouble with dictionaries of ints -/

theorem Reaches.within {v x : Val} {t u : Ty} (h : Reaches W C Γ v t x u) : Within v x := by
  induction h with
  | self => exact .self
  | elem _ _ hi hx ih => exact .elem ih hi hx
  | item _ _ hi hm ih => exact .elem ih hi (List.of_mem_zip hm).1
  | key _ hd hp ih =>
    rcases hd with rfl | ⟨fs, rfl, _, rfl⟩
    · exact .elem ih rfl (List.mem_map.2 ⟨_, hp, rfl⟩)
    · obtain ⟨q, hq, rfl⟩ := List.mem_map.1 hp; exact .name ih hq
  | val _ hd hp ih =>
    rcases hd with rfl | ⟨fs, rfl, _, rfl⟩
    · exact .value ih (Or.inl ⟨_, _, rfl, hp⟩)
    · obtain ⟨q, hq, rfl⟩ := List.mem_map.1 hp; exact .value ih (Or.inr ⟨_, _, rfl, hq⟩)
  | member _ _ ih => exact ih
  | newtype _ ih => exact ih
  | hint _ _ ih => exact ih
  | field _ hd _ _ hx _ ih =>
    rcases hd with rfl | ⟨fs, rfl, _, rfl⟩
    · exact .value ih (Or.inl ⟨_, _, rfl, hx⟩)
    · obtain ⟨q, hq, he⟩ := List.mem_map.1 hx
      simp only [Prod.mk.injEq] at he
      obtain ⟨_, rfl⟩ := he
      exact .value ih (Or.inr ⟨_, _, rfl, hq⟩)
  | fref _ _ _ _ ih => exact ih

/-- Conditions on the types used by `t` only: see `Steady`.  Here dictionaries with int keys or values are excluded if the data has bools. -/
structure SteadyTypes (W : World) (C : Config) (Γ : Env) (t : Ty) : Prop where
  unnamed : ∀ f n, Γ = some f → Uses W Γ t (.fref n) → f n = none → ∀ u, Uses W Γ t u → W.tyName u ≠ some n
  dictSafe : ∀ k w, Uses W Γ t (.dict k w) → DictSafe C k w
  dictColl : ∀ k w, Uses W Γ t (.dict k w) → k = w ∨ (∀ a u, k ≠ .coll a u) ∨ (∀ a u, w ≠ .coll a u) ∧ ∀ g, w ≠ .bare g

theorem SteadyTypes.steady {t : Ty} (h : SteadyTypes W C Γ t) {d : Val}
    (hb : (∀ b, ¬ Within d (.bool b)) ∨ ∀ k w, Uses W Γ t (.dict k w) → k ≠ .prim .int ∧ w ≠ .prim .int) : Steady W C Γ d t where
  unnamed := h.unnamed
  dictSafe := h.dictSafe
  dictColl := h.dictColl
  intKeys x kvs w hr hd p hp b he := by
    rcases hb with hb | hb
    · refine hb b (he ▸ ?_)
      have hw := hr.within
      rcases hd with rfl | ⟨fs, rfl, _, rfl⟩
      · exact .elem hw rfl (List.mem_map.2 ⟨_, hp, rfl⟩)
      · obtain ⟨q, hq, rfl⟩ := List.mem_map.1 hp; exact .name hw hq
    · exact (hb _ _ hr.uses).1 rfl
  intVals x kvs w hr hd p hp b he := by
    rcases hb with hb | hb
    · refine hb b (he ▸ ?_)
      have hw := hr.within
      rcases hd with rfl | ⟨fs, rfl, _, rfl⟩
      · exact .value hw (Or.inl ⟨_, _, rfl, hp⟩)
      · obtain ⟨q, hq, rfl⟩ := List.mem_map.1 hp; exact .value hw (Or.inr ⟨_, _, rfl, hq⟩)
    · exact (hb _ _ hr.uses).2 rfl

/-! ## The theorems -/

/-- **C43** Every value of the type can be dumped (with or without the annotation), and the data loaded back, whatever the Dumper and the Loader
have done before; the result is the value, in which some attributes that are equal to the default of their field are replaced by that default. -/
theorem C43_values_partial (hd : C.Default) (hdd : D.Default) (hu : C.uniondebugconflict = false) (hm : D.mangleKey = C.mangleKey)
    (h1 : W.NotRequiredLaw) (hnl : W.SteadyTags) (hll : W.LegalLiterals) (hdf : W.DistinctFields)
    {sd : DState} (hsd : DReachable W D sd) {s : LState} (hs : Reachable W C s) {v : Val} {t : Ty} (hv : Legal W v)
    (h : Fits W C D Γ v t) (hn : SameNames W Γ (namesIn W s t) t) (hst : SteadyTypes W C Γ t)
    (hb : (∀ a d sd', Dumps W D sd v a d sd' → ∀ b, ¬ Within d (.bool b)) ∨ ∀ k w, Uses W Γ t (.dict k w) → k ≠ .prim .int ∧ w ≠ .prim .int) :
    ∃ d r, (∃ sd', Dumps W D sd v .any d sd') ∧ (∃ sd', Dumps W D sd v t d sd') ∧ (∃ s', Loads W C s d t r s') ∧ Restored W v r := by
  obtain ⟨d, r, hse⟩ := h.serial hd
  have hw := (hse.both hd hdd hu hm hnl hll hdf).1
  obtain ⟨sd', hdu⟩ := (dumps_ref hdd hsd hv _ _).2 (hw .any (Or.inl rfl)).exists
  exact ⟨d, r, C43_round_trip hd hdd hu hm h1 hnl hll hdf hsd hs hv hse hn (hst.steady (hb.imp_left (fun h => h _ _ _ hdu)))⟩

/-- **C42** Without hidedefault the result is the value. -/
theorem C42_values_partial (hd : C.Default) (hdd : D.Default) (hu : C.uniondebugconflict = false) (hm : D.mangleKey = C.mangleKey)
    (h0 : D.hidedefault = false) (h1 : W.NotRequiredLaw) (hnl : W.SteadyTags) (hll : W.LegalLiterals) (hdf : W.DistinctFields)
    {sd : DState} (hsd : DReachable W D sd) {s : LState} (hs : Reachable W C s) {v : Val} {t : Ty} (hv : Legal W v)
    (h : Fits W C D Γ v t) (hn : SameNames W Γ (namesIn W s t) t) (hst : SteadyTypes W C Γ t)
    (hb : (∀ a d sd', Dumps W D sd v a d sd' → ∀ b, ¬ Within d (.bool b)) ∨ ∀ k w, Uses W Γ t (.dict k w) → k ≠ .prim .int ∧ w ≠ .prim .int) :
    ∃ d, (∃ sd', Dumps W D sd v .any d sd') ∧ (∃ sd', Dumps W D sd v t d sd') ∧ ∃ s', Loads W C s d t v s' := by
  obtain ⟨d, r, hse⟩ := h.serial hd
  have hr := hse.same h0
  subst hr
  have hw := (hse.both hd hdd hu hm hnl hll hdf).1
  obtain ⟨sd', hdu⟩ := (dumps_ref hdd hsd hv _ _).2 (hw .any (Or.inl rfl)).exists
  exact ⟨d, C42_round_trip hd hdd hu hm h0 h1 hnl hll hdf hsd hs hv hse hn (hst.steady (hb.imp_left (fun h => h _ _ _ hdu)))⟩

/-! ## The hypotheses are met -/

namespace Sample

/-- A chain of nodes. -/
def chain : List Int → Val
  | [] => .none
  | i :: l => .inst 7 [("v", .int i), ("next", chain l)]

theorem chain_legal (l : List Int) : Legal Sample.W (chain l) := by
  induction l with
  | nil => exact DumpPrim.legal_basic (p := .none) rfl
  | cons i l ih =>
    refine .of_parts ⟨Or.inl rfl, rfl, by simp⟩ (fun x hx => ?_)
    cases hx with
    | attr h =>
      simp only [List.mem_cons, Prod.mk.injEq, List.not_mem_nil, or_false] at h
      rcases h with ⟨_, rfl⟩ | ⟨_, rfl⟩
      · exact DumpPrim.legal_basic (p := .int) rfl
      · exact ih

/-- What "Node" means. -/
abbrev nodes : Env := namesIn Sample.W (fresh []) (.obj 7)

theorem noTag : ¬ ∃ k, ∀ w ∈ [Ty.fref "Node", .prim .none], HasLiteralField Sample.W w k := by
  rintro ⟨k, hk⟩
  obtain ⟨c, f, vs, hc, _⟩ := hk (.prim .none) (by simp)
  cases hc

theorem chain_fits (D : DConfig) (hD : D.basictypes = Sample.D.basictypes ∧ D.mangleKey = "name") (l : List Int) :
    Fits Sample.W Sample.C D nodes (chain l) (.union [.fref "Node", .prim .none]) ∧
    ∀ i, Fits Sample.W Sample.C D nodes (chain (i :: l)) (.obj 7) := by
  have hobj : ∀ i l, Fits Sample.W Sample.C D nodes (chain l) (.union [.fref "Node", .prim .none]) →
      Fits Sample.W Sample.C D nodes (chain (i :: l)) (.obj 7) := by
    intro i l h
    refine Fits.dataclass (W := Sample.W) [({ name := "v", ty := .prim .int }, .int i),
      ({ name := "next", ty := .union [.fref "Node", .prim .none] }, chain l)] rfl rfl (by simp) ?_ ?_ ?_ (fun _ => rfl) ?_
    · simp [dumpKey, aget]
    · simp [aget]
    · simp
    · simp only [List.mem_cons, List.not_mem_nil, or_false]
      rintro q (rfl | rfl)
      · exact .leaf (.basic rfl (by rw [hD.1]; decide) (Or.inl (by decide)))
      · exact h
  induction l with
  | nil =>
    have h0 : Fits Sample.W Sample.C D nodes (chain []) (.union [.fref "Node", .prim .none]) :=
      .exact (p := .none) rfl (by rw [hD.1]; decide) (by decide) (by simp)
    exact ⟨h0, fun i => hobj i _ h0⟩
  | cons j l ih =>
    have h1 : Fits Sample.W Sample.C D nodes (chain (j :: l)) (.union [.fref "Node", .prim .none]) :=
      .first (u := .fref "Node") (us := [.prim .none]) (.fref _ rfl rfl .obj) (by decide) noTag (.fref _ rfl rfl (ih.2 j))
    exact ⟨h1, fun i => hobj i _ h1⟩

theorem node_types : SteadyTypes Sample.W Sample.C nodes (.obj 7) := by
  refine ⟨fun f n h hu hn => ?_, fun k w hu => ?_, fun k w hu => ?_⟩
  · have := Sample.uses_node rfl hu
    simp at this
    subst this
    cases h
    exact absurd hn (by decide)
  · exact absurd (Sample.uses_node rfl hu) (by simp)
  · exact absurd (Sample.uses_node rfl hu) (by simp)

/-- C42: chains of nodes of any length. -/
example (i : Int) (l : List Int) : ∃ d, (∃ sd', Dumps Sample.W { hidedefault := false } {} (chain (i :: l)) .any d sd') ∧
    (∃ sd', Dumps Sample.W { hidedefault := false } {} (chain (i :: l)) (.obj 7) d sd') ∧
    ∃ s', Loads Sample.W Sample.C (fresh []) d (.obj 7) (chain (i :: l)) s' :=
  C42_values_partial (C := Sample.C) (D := { hidedefault := false }) rfl rfl rfl rfl rfl notRequiredLaw steadyTags legalLiterals distinctFields .new (.new (some []) [])
    (chain_legal _) ((chain_fits { hidedefault := false } ⟨rfl, rfl⟩ l).2 i) (.refl _ _) node_types (Or.inr (fun k w hu => absurd (uses_node rfl hu) (by simp)))

theorem p0_fits (x y : Int) (z : String) : Fits Sample.W Sample.C Sample.D nodes (.inst 0 [("x", .int x), ("z", .str z), ("y", .int y)]) (.obj 0) := by
  refine Fits.dataclass (W := Sample.W) [({ name := "x", ty := .prim .int }, .int x), ({ name := "z", ty := .prim .str, metadata := [("name", "zed")] }, .str z),
    ({ name := "y", ty := .prim .int, default := some (.int 5) }, .int y)] rfl rfl (by simp) ?_ ?_ ?_ (fun _ => rfl) ?_
  · simp [dumpKey, aget, Sample.D]
  · simp [aget, Sample.D]
  · simp
  · simp only [List.mem_cons, List.not_mem_nil, or_false]
    rintro q (rfl | rfl | rfl)
    · exact .leaf (.basic rfl (by decide) (Or.inl (by decide)))
    · exact .leaf (.basic rfl (by decide) (Or.inl (by decide)))
    · exact .leaf (.basic rfl (by decide) (Or.inl (by decide)))

theorem ps_legal (l : List (Int × String × Int)) :
    Legal Sample.W (.list (l.map (fun q => .inst 0 [("x", .int q.1), ("z", .str q.2.1), ("y", .int q.2.2)]))) := by
  refine .of_parts (fun h => (by cases h)) (fun x hx => ?_)
  cases hx with
  | elem h =>
    obtain ⟨q, _, rfl⟩ := List.mem_map.1 h
    refine .of_parts ⟨Or.inl rfl, rfl, by simp⟩ (fun x hx => ?_)
    cases hx with
    | attr h =>
      simp only [List.mem_cons, Prod.mk.injEq, List.not_mem_nil, or_false] at h
      rcases h with ⟨_, rfl⟩ | ⟨_, rfl⟩ | ⟨_, rfl⟩
      · exact DumpPrim.legal_basic (p := .int) rfl
      · exact DumpPrim.legal_basic (p := .str) rfl
      · exact DumpPrim.legal_basic (p := .int) rfl

/-- C43: lists of `P`, where `y = 5` is omitted. -/
example (l : List (Int × String × Int)) : ∃ d r,
    (∃ sd', Dumps Sample.W Sample.D {} (.list (l.map (fun q => .inst 0 [("x", .int q.1), ("z", .str q.2.1), ("y", .int q.2.2)]))) .any d sd') ∧
    (∃ sd', Dumps Sample.W Sample.D {} (.list (l.map (fun q => .inst 0 [("x", .int q.1), ("z", .str q.2.1), ("y", .int q.2.2)]))) (.coll .list (.obj 0)) d sd') ∧
    (∃ s', Loads Sample.W Sample.C (fresh []) d (.coll .list (.obj 0)) r s') ∧
    Restored Sample.W (.list (l.map (fun q => .inst 0 [("x", .int q.1), ("z", .str q.2.1), ("y", .int q.2.2)]))) r := by
  refine C43_values_partial (C := Sample.C) (D := Sample.D) rfl rfl rfl rfl notRequiredLaw steadyTags legalLiterals distinctFields .new (.new (some []) [])
    (ps_legal l) (Γ := nodes) (.coll rfl (h := .dataclassload) rfl (fun x hx => ?_)) ⟨by simp [namesIn, fresh], fun _ _ _ _ n hu => absurd (uses_P hu) (by simp)⟩
    ⟨fun _ _ _ hu => absurd (uses_P hu) (by simp), fun _ _ hu => absurd (uses_P hu) (by simp), fun _ _ hu => absurd (uses_P hu) (by simp)⟩
    (Or.inr (fun _ _ hu => absurd (uses_P hu) (by simp)))
  obtain ⟨q, _, rfl⟩ := List.mem_map.1 hx
  exact p0_fits _ _ _

/-- `class X: tag: Literal['x'] = 'x'; p: int` and `class Y: tag: Literal['y'] = 'y'; p: int` (dataclasses) -/
def W16 : World := { Sample.W with cls := fun c => match c with
  | 0 => { kind := .dataclass, name := "X", fields := [{ name := "p", ty := .prim .int }, { name := "tag", ty := .lit [.str "x"], default := some (.str "x") }] }
  | _ => { kind := .dataclass, name := "Y", fields := [{ name := "p", ty := .prim .int }, { name := "tag", ty := .lit [.str "y"], default := some (.str "y") }] } }

/-- `timedelta(5.0)` is five days; `(5 seconds).total_seconds()` is 5.0. -/
def W17 : World := { Sample.W with call := fun t v => match t, v with
  | .timedelta, .float _ => .ok (.timedelta 432000000000)
  | t, v => Sample.call t v }

/-- The tag `"two"` tells `L2` in `Union[L1, L2]`. -/
theorem l2_tells (p : Int) : Tells Sample.W Sample.D (.inst 6 [("tag", .str "two"), ("p", .int p)]) [.obj 5, .obj 6] (.obj 6) := by
  have key : ∀ k, HasLiteralField Sample.W (.obj 5) k → k = "tag" := by
    rintro k ⟨c, f, vs, hc, hf, rfl, hty⟩
    cases hc
    simp only [Sample.W, Sample.cls, Sample.clsL1, List.mem_cons, List.not_mem_nil, or_false] at hf
    rcases hf with rfl | rfl
    · rfl
    · cases hty
  constructor
  · simp
  · intro u hu c hc f hf _
    subst hc
    simp only [List.mem_cons, List.not_mem_nil, or_false, Ty.obj.injEq] at hu
    rcases hu with rfl | rfl <;>
      (simp only [Sample.W, Sample.cls, Sample.clsL1, Sample.clsL2, List.mem_cons, List.not_mem_nil, or_false] at hf; rcases hf with rfl | rfl <;> rfl)
  · refine ⟨"tag", fun u hu => ?_⟩
    simp only [List.mem_cons, List.not_mem_nil, or_false] at hu
    rcases hu with rfl | rfl
    · exact ⟨5, _, _, rfl, List.mem_cons_self .., rfl, rfl⟩
    · exact ⟨6, _, _, rfl, List.mem_cons_self .., rfl, rfl⟩
  · intro k hk
    have := key k (hk _ (by simp)); subst this
    refine ⟨.str "two", .inst (by simp), ⟨.str "two", ⟨6, _, _, rfl, List.mem_cons_self .., rfl, rfl, by simp⟩, by decide⟩, fun u hu hne l hl => ?_⟩
    simp only [List.mem_cons, List.not_mem_nil, or_false] at hu
    rcases hu with rfl | rfl
    · obtain ⟨c, f, vs, hc, hf, hname, hty, hl⟩ := hl
      cases hc
      simp only [Sample.W, Sample.cls, Sample.clsL1, List.mem_cons, List.not_mem_nil, or_false] at hf
      rcases hf with rfl | rfl
      · cases hty; simp at hl; subst hl; decide
      · cases hty
    · exact absurd rfl hne
  · intro c f hc hf hk
    have := key _ (hk _ (by simp))
    cases hc
    simp only [Sample.W, Sample.cls, Sample.clsL2, List.mem_cons, List.not_mem_nil, or_false] at hf
    rcases hf with rfl | rfl
    · exact ⟨by simp [dumpKey, aget], Or.inl rfl⟩
    · simp at this

/-- A value of a tagged union. -/
example (p : Int) : Fits Sample.W Sample.C Sample.D nodes (.inst 6 [("tag", .str "two"), ("p", .int p)]) (.union [.obj 5, .obj 6]) := by
  refine .tagged ?_ (l2_tells p)
  refine Fits.dataclass (W := Sample.W) [({ name := "tag", ty := .lit [.str "two"] }, .str "two"), ({ name := "p", ty := .prim .int }, .int p)]
    rfl rfl (by simp) ?_ ?_ ?_ (fun _ => rfl) ?_
  · simp [dumpKey, aget]
  · simp [aget]
  · simp
  · simp only [List.mem_cons, List.not_mem_nil, or_false]
    rintro q (rfl | rfl)
    · exact .leaf (.literal (p := .str) rfl (by decide) (by decide))
    · exact .leaf (.basic rfl (by decide) (Or.inl (by decide)))

end Sample

/-- **C42** fails for `Dict[timedelta, int]` (a type excluded by `SteadyTypes.dictSafe`): five seconds come back as five days. -/
theorem C42_timedelta_counterexample : ∃ (W : World) (v d r : Val) (sd : DState) (s : LState), Legal W v ∧ v = .dict [(.timedelta 5000000, .int 1)] ∧
    Dumps W { hidedefault := false } {} v .any d sd ∧ Loads W {} (fresh []) d (.dict .timedelta (.prim .int)) r s ∧ r = .dict [(.timedelta 432000000000, .int 1)] := by
  refine ⟨Sample.W17, _, _, _, _, _, ?_, rfl, ⟨9, rfl⟩, ⟨9, rfl⟩, rfl⟩
  refine .of_parts ⟨?_, ?_⟩ (fun x hx => ?_)
  · exact .cons (fun _ h => (by cases h)) .nil
  · intro q hq; simp only [List.mem_singleton] at hq; subst hq; rfl
  cases hx with
  | key h =>
    simp only [List.mem_cons, Prod.mk.injEq, List.not_mem_nil, or_false] at h
    obtain ⟨rfl, rfl⟩ := h
    refine .of_parts ?_ (fun x hx => by cases hx)
    show validTimedelta 5000000 = true
    decide
  | val h =>
    simp only [List.mem_cons, Prod.mk.injEq, List.not_mem_nil, or_false] at h
    obtain ⟨rfl, rfl⟩ := h
    exact DumpPrim.legal_basic (p := .int) rfl

/-- **C43** fails for a tagged union whose tags have defaults: hidedefault omits the tag, so an instance of one class comes back as an instance
of another, although the tag tells them apart (see `Tells.written`). -/
theorem C43_discriminator_counterexample : ∃ (W : World) (v d r : Val) (sd : DState) (s : LState), Legal W v ∧ v = .inst 1 [("p", .int 1), ("tag", .str "y")] ∧
    Dumps W {} {} v .any d sd ∧ Loads W {} (fresh []) d (.union [.obj 0, .obj 1]) r s ∧ r = .inst 0 [("p", .int 1), ("tag", .str "x")] := by
  refine ⟨Sample.W16, _, _, _, _, _, ?_, rfl, ⟨9, rfl⟩, ⟨9, rfl⟩, rfl⟩
  refine .of_parts ⟨Or.inl rfl, rfl, by simp⟩ (fun x hx => ?_)
  cases hx with
  | attr h =>
    simp only [List.mem_cons, Prod.mk.injEq, List.not_mem_nil, or_false] at h
    rcases h with ⟨_, rfl⟩ | ⟨_, rfl⟩
    · exact DumpPrim.legal_basic (p := .int) rfl
    · exact DumpPrim.legal_basic (p := .str) rfl

end TL
