import Verif.Lemmas.Sem
/-!
# The outcomes of a step are monotone in what is known about the calls it makes
-/

namespace TL

variable {W : World} {C : Config} {P P' : Handler → Val → Ty → Except Exc Val → Prop}

section
variable (hP : ∀ h v t o, P h v t o → P' h v t o)
include hP

theorem CallSem.mono {m : Exc} {x : Val} {t : Ty} {o : Except Exc Val} (h : CallSem W C P m x t o) : CallSem W C P' m x t o := by
  cases h with
  | noHandler h => exact .noHandler h
  | call h1 h2 => exact .call h1 (hP _ _ _ _ h2)

theorem LoadSem.mono {x : Val} {t : Ty} {a : Option Annotation} {o : Except Exc Val} (h : LoadSem W C P x t a o) : LoadSem W C P' x t a o := by
  cases h with
  | noHandler h => exact .noHandler h
  | ok h1 h2 => exact .ok h1 (hP _ _ _ _ h2)
  | err h1 h2 => exact .err h1 (hP _ _ _ _ h2)

theorem ElemSem.mono {hh : Handler} {et : Ty} {x : Val} {o : Except Exc Val} (h : ElemSem C P hh et x o) : ElemSem C P' hh et x o := by
  cases h with
  | pass h => exact .pass h
  | call h1 h2 => exact .call h1 (hP _ _ _ _ h2)

theorem IterSem.mono {hh : Handler} {k : SeqKind} {et : Ty} {v : Val} {t : Ty} {xs : List Val} {i : Nat} {acc : List Val} {o : Except Exc (List Val)}
    (h : IterSem W C P hh k et v t xs i acc o) : IterSem W C P' hh k et v t xs i acc o := by
  induction h with
  | nil => exact .nil
  | cons h1 h2 _ ih => exact .cons (h1.mono hP) h2 ih
  | unhashable h1 h2 => exact .unhashable (h1.mono hP) h2
  | stop h1 h2 h3 => exact .stop (h1.mono hP) h2 h3
  | elem h1 h2 => exact .elem (h1.mono hP) h2

theorem TupElemSem.mono {x : Val} {u : Ty} {o : Except Exc Val} (h : TupElemSem W C P x u o) : TupElemSem W C P' x u o := by
  cases h with
  | noHandler h => exact .noHandler h
  | pass h1 h2 h3 => exact .pass h1 h2 h3
  | call h1 h2 h3 => exact .call h1 h2 (hP _ _ _ _ h3)

theorem TupSem.mono {v : Val} {t : Ty} {xs : List Val} {us : List Ty} {i : Nat} {o : Except Exc (List Val)}
    (h : TupSem W C P v t xs us i o) : TupSem W C P' v t xs us i o := by
  induction h with
  | nil_left => exact .nil_left
  | nil_right => exact .nil_right
  | ok h1 _ ih => exact .ok (h1.mono hP) ih
  | later h1 _ ih => exact .later (h1.mono hP) ih
  | elem h1 => exact .elem (h1.mono hP)

theorem FastPart.mono {hh : Option Handler} {t : Ty} {x y : Val} (h : FastPart C P hh t x y) : FastPart C P' hh t x y := by
  cases h with
  | pass h => exact .pass h
  | call h1 h2 h3 => exact .call h1 h2 (hP _ _ _ _ h3)

theorem FastSem.mono {kt vt : Ty} {kf : Handler} {vf : Option Handler} {kvs acc res : List (Val × Val)} (h : FastSem W C P kt vt kf vf kvs acc res) :
    FastSem W C P' kt vt kf vf kvs acc res := by
  induction h with
  | nil => exact .nil
  | cons h1 h2 h3 _ ih => exact .cons (h1.mono hP) (h2.mono hP) h3 ih

theorem SlowSem.mono {kt vt : Ty} {kvs acc : List (Val × Val)} {o : Except Exc (List (Val × Val))} (h : SlowSem W C P kt vt kvs acc o) :
    SlowSem W C P' kt vt kvs acc o := by
  induction h with
  | nil => exact .nil
  | cons h1 h2 h3 _ ih => exact .cons (h1.mono hP) (h2.mono hP) h3 ih
  | key h => exact .key (h.mono hP)
  | value h1 h2 => exact .value (h1.mono hP) (h2.mono hP)
  | unhashable h1 h2 h3 => exact .unhashable (h1.mono hP) (h2.mono hP) h3

theorem FieldsSem.mono {info : ObjInfo} {v : Val} {t : Ty} {kvs : List (Val × Val)} {acc : List (String × Val)} {o : Except Exc (List (String × Val))}
    (h : FieldsSem W C P info v t kvs acc o) : FieldsSem W C P' info v t kvs acc o := by
  induction h with
  | nil => exact .nil
  | other h1 _ ih => exact .other h1 ih
  | field h1 h2 h3 h4 _ ih => exact .field h1 h2 h3 (hP _ _ _ _ h4) ih
  | fieldErr h1 h2 h3 h4 => exact .fieldErr h1 h2 h3 (hP _ _ _ _ h4)
  | noHandler h1 h2 h3 => exact .noHandler h1 h2 h3

theorem TrySem.mono {v : Val} {t : Ty} {us : List Ty} {c : Nat} {r : Val} {es : List Exc} {o : Except Exc (Nat × Val × List Exc)}
    (h : TrySem W C P v t us c r es o) : TrySem W C P' v t us c r es o := by
  induction h with
  | nil => exact .nil
  | win h1 h2 => exact .win (h1.mono hP) h2
  | count h1 h2 _ ih => exact .count (h1.mono hP) h2 ih
  | refuse h1 h2 _ ih => exact .refuse (h1.mono hP) h2 ih
  | crash h1 h2 => exact .crash (h1.mono hP) h2

theorem HintsSem.mono {v : Val} {e : Nat} {us : List Ty} {es : List Exc} {o : Except Exc Val} (h : HintsSem W C P v e us es o) :
    HintsSem W C P' v e us es o := by
  induction h with
  | nil => exact .nil
  | ok h1 h2 => exact .ok (h1.mono hP) h2
  | noMember h1 h2 _ ih => exact .noMember (h1.mono hP) h2 ih
  | err h1 _ ih => exact .err (h1.mono hP) ih

theorem ScriptSem.mono {p : Script} {o : Except Exc Val} (h : ScriptSem W C P p o) : ScriptSem W C P' p o := by
  induction h with
  | ret => exact .ret
  | raise => exact .raise
  | call h1 _ ih => exact .call (h1.mono hP) ih

theorem ObjSem.mono {v : Val} {c : Nat} {o : Except Exc Val} (h : ObjSem W C P v c o) : ObjSem W C P' v c o := by
  cases h with
  | stop h1 h2 => exact .stop h1 h2
  | mangle h1 h2 h3 => exact .mangle h1 h2 h3
  | noDict h1 h2 h3 => exact .noDict h1 h2 h3
  | missing h1 h2 h3 => exact .missing h1 h2 h3
  | extra h1 h2 h3 h4 => exact .extra h1 h2 h3 h4
  | extraKey h1 h2 h3 h4 => exact .extraKey h1 h2 h3 h4
  | field h1 h2 h3 h4 => exact .field h1 h2 h3 (h4.mono hP)
  | construct h1 h2 h3 h4 h5 => exact .construct h1 h2 h3 (h4.mono hP) h5
  | ok h1 h2 h3 h4 h5 h6 => exact .ok h1 h2 h3 h4 (h5.mono hP) h6

theorem StepSem.mono {F F' : Names} (hF : ∀ n u, F n u → F' n u) (hh : ∀ n u, F'.has n u → F.has n u) {h : Handler} {v : Val} {t : Ty}
    {o : Except Exc Val} (hs : StepSem W C F P h v t o) : StepSem W C F' P' h v t o := by
  cases hs with
  | leaf h1 h2 => exact .leaf h1 h2
  | mismatch h1 h2 => exact .mismatch h1 h2
  | iterDict h1 h2 => exact .iterDict h1 h2
  | iterLookup h1 h2 => exact .iterLookup h1 h2
  | iterNot h1 h2 => exact .iterNot h1 h2
  | iterErr h1 h2 h3 h4 h5 => exact .iterErr h1 h2 h3 h4 (h5.mono hP)
  | iter h1 h2 h3 h4 h5 => exact .iter h1 h2 h3 h4 (h5.mono hP)
  | tupDict h1 => exact .tupDict h1
  | tupLen h1 => exact .tupLen h1
  | tupSize h1 h2 => exact .tupSize h1 h2
  | tupErr h1 h2 h3 h4 => exact .tupErr h1 h2 h3 (h4.mono hP)
  | tup h1 h2 h3 h4 h5 => exact .tup h1 h2 h3 h4 (h5.mono hP)
  | dictLookup h1 h2 => exact .dictLookup h1 h2
  | dictNot h1 => exact .dictNot h1
  | dictFast h1 h2 h3 h4 h5 => exact .dictFast h1 h2 h3 h4 (h5.mono hP)
  | dictSlow h1 h2 h3 h4 => exact .dictSlow h1 h2 h3 (h4.mono hP)
  | dictErr h1 h2 h3 h4 => exact .dictErr h1 h2 h3 (h4.mono hP)
  | obj h => exact .obj (h.mono hP)
  | unionBasic h => exact .unionBasic h
  | unionTag h => exact .unionTag h
  | unionCrash h1 h2 h3 => exact .unionCrash h1 h2 (h3.mono hP)
  | unionOne h1 h2 h3 => exact .unionOne h1 h2 (h3.mono hP)
  | unionNone h1 h2 h3 => exact .unionNone h1 h2 (h3.mono hP)
  | unionMany h1 h2 h3 => exact .unionMany h1 h2 (h3.mono hP)
  | enumMember h => exact .enumMember h
  | enumHints h1 h2 => exact .enumHints h1 (h2.mono hP)
  | frefDisabled h => exact .frefDisabled (fun u hu => h u (hh _ _ hu))
  | frefUnknown h => exact .frefUnknown (fun u hu => h u (hh _ _ hu))
  | fref h1 h2 h3 => exact .fref (hF _ _ h1) (fun u hu => h2 u (hh _ _ hu)) (h3.mono hP)
  | newtype h => exact .newtype (h.mono hP)
  | custom h1 h2 => exact .custom h1 (h2.mono hP)
end

end TL
