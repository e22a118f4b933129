{"P03":{"tightened":[],"note":"the English of C11 is not affected by the edit; C50_* fail."},
"P09":{"tightened":[],"note":"C04 stays true of the edited program; other theorems fail."},
"P10":{"tightened":["TL.C11_designated_first"],"note":"C11 now says the designated member is tried before the others."},
"P22":{"tightened":["TL.C64_raises"],"note":"C05 stays true; the class of the exception is now claimed by C64_raises (added)."},
"P27":{"tightened":[],"note":"C31 does not claim the type in the exception; C12_reports_all fails."},
"P39":{"tightened":[],"note":"not observable through C21; C57_evolution fails."},
"P49":{"tightened":["TL.C26_values"],"note":"added: membership in a Literal is ==."},
"P50":{"tightened":["TL.C15_hashable","TL.C17_hashable"],"note":"added: elements of sets and keys of dictionaries must be hashable."},
"P51":{"tightened":["TL.C17_last_wins"],"note":"added."},
"P53":{"tightened":["TL.C15_instances"],"note":"added."},
"P54":{"tightened":["TL.C15_any"],"note":"added."},
"P55":{"tightened":[],"note":"C33 is not affected; C45_* fail."},
"P61":{"tightened":["TL.C71_dataclass"],"note":"added: the annotations handed to the handlers."},
"P66":{"tightened":[],"note":"C01 stays true; 66 other theorems fail."},
"P68":{"tightened":["TL.C46_table","TL.C46_generics"],"note":"the dispatch table is now stated independently of the predicates."},
"P69":{"tightened":["TL.C46_table","TL.C46_forms"],"note":"as P68."},
"P70":{"tightened":["TL.C46_uniontypes"],"note":"broke no theorem before; C46_uniontypes added."}}
