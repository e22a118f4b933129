# Formal model of typedload in Lean 4

## What is modelled

`typedload/dataloader.py`, `datadumper.py`, `exceptions.py`, `typechecks.py` and the two functions of
`__init__.py`, function by function, as total computable Lean functions:

* **Values** (`Val`): None, bool, int, float (exact multiples of 2^-1074, inf, nan), str, bytes, list/tuple/set/frozenset,
  dict (insertion-ordered association list), argparse.Namespace, enum members, class instances, dates, timedeltas,
  patterns, string-constructed objects, opaque objects. Python `==`, hashability, `isinstance`, iteration, `len`, dict insertion and
  lookup are defined on them.
* **Types** (`Ty`): the supported typing constructs. Classes and enums live in a class table of the `World`
  so that recursive classes are possible; forward references are names.
* **World**: everything external is an arbitrary parameter (constructor calls, `__post_init__`/validators, `fromisoformat`, `re.compile`,
  float arithmetic of timedelta, `set.pop` choice, custom handlers). Theorems quantify over every world; laws used are explicit hypotheses.
* **Loader state**: the handler cache, forward-ref registry, class-description cache, discriminator cache, and the
  in-place rewriting of TypedDict annotations. A load is a state transformer returning a value, an exception or divergence.
* **Recursion**: every handler is a non-recursive function of a parameter `rec` ("call this handler");
  the loader ties the knot with fuel. Running out of fuel is the third outcome `div` (uncatchable) and is proved monotone,
  so `div` for every fuel means non-termination (in CPython: RecursionError).

## Trusted base

* Lean 4.33's kernel. No axiom is added: every theorem depends on at most `propext`, `Classical.choice`, `Quot.sound`;
  `AXIOMS.md` (generated by `tools/axioms.py` from `#print axioms`) lists them theorem by theorem.
* The reading of the Python source. Every definition of `lean/Verif/Model` cites the file and lines it models; there is no
  mechanical translation.
* The facts about CPython and its standard library that are *modelled concretely* rather than left as parameters: `==` and hashability of the values of
  `Val`, dict insertion order and last-wins, set deduplication, iteration and `len`, the proleptic calendar and the field ranges of `datetime`,
  the range of `timedelta`, `isinstance`/exact-type tests on builtin types (bool is an int), what exception classes `except` clauses catch.
* Everything else about the outside world is a field of the structure `World` and is **universally quantified**. The laws some theorems need are
  named hypotheses: `World.Lawful` (a constructor returns an instance of its class; equal hashing facts), `NotRequiredLaw`
  (a NotRequired key is not in `__required_keys__`), `NoHiddenLiteral` (no discriminator hidden under NotRequired: see finding 12), `LegalLiterals`
  (Literal arguments are literals), `DistinctFields` (field names and external names do not clash). `Sample.lean` contains a concrete world satisfying all of them.

## What is modelled, file by file

| file | modelled | not modelled |
|---|---|---|
| `dataloader.py` | the whole of `Loader` (constructor options, `index`, `load`, and all handlers), the `attr`-importing part as options of the class table | type hints evaluation (`pep563`, see below), messages are message *kinds* with their arguments |
| `datadumper.py` | the whole of `Dumper` | deprecated two-argument handlers are not told apart from three-argument ones |
| `exceptions.py` | class hierarchy, `trace`, `exceptions`, `__str__`, `_path`, `_subexceptions`, `_firstline` | exact wording (a parameter of the rendering) |
| `typechecks.py` | every predicate, as a function of the type syntax | the version-dependent ways the `typing` module represents a type |
| `__init__.py` | `load`, `dump` | re-exports |
| `helpers.py` | `tname` appears only in message texts | texts of type names |

User-supplied conditions are arbitrary functions of the world (`customCond`, `dumpCond`), which may accept, refuse or raise. User-supplied handlers
(`customLoad`, `dumpCustom`) are arbitrary interaction trees (`Script`): they may return or raise anything, and may call `load(value, type, annotation=...)`
of the loader (`dump(value, type)` of the dumper) they were given any finite number of times, looking at each answer (a value or an exception, which they
may catch) before going on. Theorems that do not assume the default handler list (C01, C02, C04, C07, C08, C45, C53, C54 and the invariants, C83, C84, C85) hold with
such handlers installed; so do C03_user_partial, C05_user_partial, C60_user_sound_partial and C60_typed_errors_partial, where default handlers may also be removed or moved. Handlers with their own mutable state, and handlers that change the loader's attributes, are not modelled.

Threads: `Model/Threads.lean` has the handlers once more, as programs that access the loader in single atomic steps (CPython dictionary operations), and
their interleavings; `T.exec_load` proves that a thread running alone is the sequential model. The states of a loader in use by threads are `Reachable`
(constructor `shared`), so every theorem about reachable loaders says what a call made on such a loader does when it runs undisturbed; C59 and C60 are about calls that are
disturbed. `Model/DumpThreads.lean` does the same for the Dumper (`TD.dump_exec`, `DReachable.shared`, C65). Not modelled: threads that assign options or handlers meanwhile, user handlers that communicate other than through the loader.

`pep563=True` makes the loader use `get_type_hints(cls)` instead of `cls.__annotations__`: the forward references in the hints are resolved, `NotRequired` is removed and, as a new
dictionary is made, the annotations of a TypedDict are not rewritten. What the loader does then is what it does with `pep563=False` in a program whose classes are annotated
with the resolved hints (`notRequired = false`); the class table is a parameter, so the theorems cover it. `ClassVar` and `InitVar` pseudo-fields of a dataclass are in
`__dataclass_fields__`, and typedload treats them as fields: in the model they are fields of an unsupported type (`Ty.opaque`).

Not modelled at all: data whose own attributes shadow `items`, `keys`, `get` or `_get_kwargs` (a Namespace or a dataclass instance with such a field), attrs factories with `takes_self`, generators inside other data (generators as the data itself: `Model/Generators.lean`, C72), mutation of the handler list after first use (only the counterexample C58_handlers), the shortcut `x is y` that containers take before `x == y` (it matters for NaN only), classes with their own `__eq__` or `eq=False`, comparison of datetimes across time zones,
IntEnum/str subclasses as data, user-defined `__eq__`/`__hash__` on data.
`Enum._missing_` is a parameter of the world (`World.missing`: a member, or nothing); that what it raises may be of another class than ValueError (seen only among the sub-exceptions of an enum load) is not modelled.
CPython's recursion limit, MemoryError etc. are `Faults` (`Model/Faults.lean`): any set of handler calls may raise any exception; `load` itself is without them (deep data is not
`RecursionError`), and `loadFaulty` is related to it by C62. States left behind by faulty loads are `Reachable`.
Object identity: `Model/DumpObjects.lean` (C68), `Model/LoadObjects.lean` (C69, C70; default handlers only; what `type_(value)` returns is new, and `__post_init__` etc. use only what they are given or make).
Python has `Union[A, B] == Union[B, A]`, and `_unionload_discriminatorcache` is a dictionary: `World.unionKey` says which unions share an entry (finding 22).
The handler cache is keyed by the type as written, a difference that only a user condition telling the orders apart could see.

## Findings (each is a theorem about the model of the code as it is; the property it breaks is kept as *partial*)

1. `_dictload` picks the value handler for keys: when the handler of the value type is not cached, `key_f` is overwritten (C17_mixup, C17_units,
   C24_dict, C03_mixup, C06_bool counterexamples; Dict[timedelta,int] turns 5 seconds into 5 days in C42_timedelta_counterexample).
2. `_tupleload` calls `len(value)` outside its `try`: a TypeError becomes an AssertionError (C10_tuple, C16_no_len, C05 counterexamples).
3. `failonextra` with a non-string extra key: TypeError in `sorted`/`join`, hence AssertionError (C20_non_string, C05 counterexamples).
4. A union whose discriminator value is unhashable: TypeError, hence AssertionError (C10_tag_counterexample).
5. `datetime`/`timedelta` OverflowError (and ValueError for nan) escape as AssertionError (C33_overflow, C34_overflow, C05 counterexamples).
6. `_patternload`'s check of the parameter is dead code: `Pattern[bytes]` accepts str (C35_parameter_counterexample).
7. An attrs converter that has only a return annotation makes the loader raise StopIteration; inside `list(map(...))` this silently truncates the
   list (C15_truncation_counterexample).
8. Forward references are registered only in `load()` on a cache miss: a self-referential class first met inside another type cannot be loaded later (C06_fref_counterexample).
9. An unhashable loaded key of a dict gives AssertionError (C17_unhashable_counterexample); the slow path of dict loading loses the trace of attribute errors.
10. `_enumload` stores plain ValueErrors among the sub-exceptions, so `str(e)` raises AttributeError (C32_enum_counterexample).
11. A Namespace does not load into a dataclass with renamed fields (C29_renamed_counterexample); the empty external name is honoured by load
    and ignored by dump (C44_empty_counterexample).
12. Loading a TypedDict rewrites the annotations of the class, so a `NotRequired[Literal]` discriminator is seen only after the first load (C47_hidden_literal_counterexample).
13. A one-character string iterates to itself: a recursive list type never terminates on it (C45_char_counterexample); `A = Union['A', int]`
    never terminates on a non-int (C45_union_counterexample).
14. For an unsupported type, `load` raises with an empty trace (first disjunct of C31_trace).
15. Loading is not idempotent for unions with two iterable members (C49_union_counterexample).
16. `hidedefault` omits a discriminator that has a default: dump then load may return an instance of another class (C43_discriminator_counterexample).
17. A discriminator can move a crashing member (finding 2-5) to the front so that the union fails although another member accepts (provisos of C50).
18. The dumper caches its choice by `type(value)`: a user condition that looks at the value gives history-dependent results (C53_value_condition_counterexample).
19. A user handler for a basic type is bypassed for list elements that are already instances (C54_basic_counterexample).
20. `_iteratordump` copies a list annotated `List[basic]` unchecked (C38_untruthful_counterexample).
21. docs/errors.md says that the last trace item of a failed list element holds the element and its type; the code puts the container and its type there.
22. The discriminator cache is keyed by the union, and unions compare as sets: after loading `Union[B, A]`, the loader uses the discriminator of that
    union for `Union[A, B]`, which can return an instance of another class (C06_spelling_counterexample; the proviso `OneSpelling`).
23. `Loader.load` stores the handler of a type before it registers the name of the type: a second thread that loads the same self-referential type for the first
    time meanwhile finds the handler, does not register the name and fails with "ForwardRef 'Node' unknown" (C59_unregistered_counterexample).
24. The registration of names is a check followed by an assignment: two threads can register two types of the same name, the second replacing the first, and
    the references of one value resolve to both (C59_rebound_counterexample).

25. `discriminatorliterals` reads `__annotations__`, which does not list the fields inherited from base classes: a union of classes that inherit their tag has no
    discriminator, and the member that the tag designates is not tried first (C50_inherited_counterexample).
26. The order of the keys of a dictionary can decide whether a union accepts it: `load({'n': 'x', 'd': float('inf')}, Union[K, Any])` with `class K: d: timedelta; n: int`
    returns the data, `load({'d': float('inf'), 'n': 'x'}, Union[K, Any])` raises AssertionError, because OverflowError passes through the union (C61_crash_counterexample).
27. The stack available can decide which value is returned: `load([[1]], Union[Tuple[Tuple[int, ...], ...], Any])` is `((1,),)`, but `[[1]]` when the stack ends two calls below the
    union, because the handler of tuples turns RecursionError into TypedloadTypeError, a refusal to the union (C62_counterexample); the same for Enums with two annotations.
28. With unions inside sets, permissive options may even *refuse*: `load([["5"]], Set[Union[List[int], Tuple[str]]])` is `{("5",)}` with basiccast=False; with basiccast=True the
    element becomes the list `[5]`, which no set can hold (C24_refused_counterexample); the same for failonextra (C25_refused_counterexample).
29. A dataclass attribute annotated `List[int]` that really is `[[1]]` is copied one level deep by the fast path of `_iteratordump`: the dump contains the attribute's own inner list (C68_alias_counterexample).
30. `Any` returns the very object it was given, so that the result of a load may share objects with the data (C69_any_counterexample).
31. A mutable default of a NamedTuple or attrs class is shared by all loaded instances: changing one changes the others (C69_default_counterexample).
32. The fast path of `_iteratordump` bypasses handlers of the user that were not put first (C71_shortcut_counterexample).
33. A union tries its members on the same generator: `Union[List[int], List[str]]` on a generator of 'a', 'b' returns `['b']`, without any error (C72_union_counterexample).
34. JSON data can load into something the dumper refuses: `Dict[Tuple[str, ...], T]` and, without isodates, `Dict[date, T]` load from dictionaries with string keys, and dump raises a bare `TypeError: unhashable type: 'list'` (C77_tuple_key_counterexample, C77_date_key_counterexample).
35. Loading, dumping and loading again is not the identity even on JSON data: `load(5, Union[float, timedelta])` is an interval, its dump is the float 5.0, which loads as a float (C78_union_counterexample); with `x: Any = 1`, `{'x': True}` loads as `K(True)`, dumps (hidedefault) as `{}` and loads as `K(1)` (C78_hidden_counterexample).
36. `_dataclassdump` iterates a set: the order of the keys of a dumped dataclass changes from process to process, and where two fields have the same external name, so does which of the two values is lost (C79_clash_counterexample).
37. Where the members of a union have two Literal fields in common, `keys.pop()` chooses the discriminator by string hash: `load({'k': 'x', 'm': 'a'}, Union[A, B, C])` is an `A` in one process and a `B` in another (C80_seed_counterexample); with unhashable data under one of the keys one process raises AssertionError, another a TypedloadException (C80_error_counterexample).
38. `Dumper.index` formats its error with `'Unable to dump %s' % value`: a tuple (or NamedTuple) of other than one element without handler raises a bare TypeError instead of TypedloadValueError (C41_table; only with a modified handler list, the default one handles every tuple).
39. The shortcut of `_iteratordump` for lists of basic types tests `d.handlers[0][1]`: any handler inserted at the front of the list of a dumper, even one that accepts nothing, turns it off, so that `class Q: xs: List[int]`, `Q([Path('a')])` is dumped as `{'xs': ['a']}` instead of `{'xs': [Path('a')]}` (C84_front_counterexample).
40. With a handler of the user for a basic type, what `Dict[str, T]` does with its keys depends on the history: the fast path of `_dictload` passes strings through, the slow path gives them to the handler (C06_user_counterexample).

## How the proofs are organised

* `Model/` is executable and non-recursive per handler (open recursion), `Spec/` is the vocabulary of the statements (`Loads`, `Raises`, `Diverges`, `Reachable`,
  `HasType`, `Within`, `Uses`, ...), `Lemmas/` the metatheory, `Props/` the theorems `Cxx_...` with a witness `example` beside each.
* `Lemmas/Fuel`: more fuel never changes an outcome. `Lemmas/State`: coherence invariant of the caches over all reachable states.
* `Lemmas/Step`, `Sem`, `SemErr`: one relational step per handler, complete with respect to the model, from which the inductive judgements are derived.
* `Lemmas/Ref`, `RefRun`: a stateless semantics (caches replaced by what they must contain) proved equivalent to the stateful one on steady values.
* `Lemmas/Dump`, `DumpInv`: the same for the dumper.
* `Lemmas/Total`: termination by the order (size of data, absence of endless retry chains).

## Testing the theorems against wrong programs

`tools/mutate/` edits the model as a realistic bug would (scratch copy), rebuilds every property and reports which theorems fail;
`seeded/LOG.jsonl` has one line per attempt. Surviving claims led to tighter theorems (field `tightened`).

## Plan per property

- **C01 Handler dispatch is first-match** — `Loader.index` modelled over an arbitrary list of (condition, handler) pairs; proof by induction on the list.
- **C02 raiseconditionerrors** — same model, conditions return `Except`; induction on the list.
- **C03 A loaded value has the requested type** — inductive judgement `HasType` (with the promises `U` of the user's handlers, assume-guarantee style); Hoare-style induction on fuel over all handlers. Known false in general (Dict key handler mix-up, Pattern parameter check): proved negations + `_partial`.
- **C04 What can escape load()** — Hoare-style case analysis of `load`.
- **C05 Every load failure is a TypedloadException** — False in general: negations with witnesses; `_partial` on a closed universe of safe types by induction on fuel; `C05_suits` (`Props/ErrorsData.lean`) for data and types that suit each other part by part, and `C05_json` for json data.
- **C06 Reusing a loader does not change results** — relational (two-run) induction on fuel over two loader states; false in general (Dict cold cache, frefs registration): witnesses + `_partial`. `Props/ReuseUser.lean`: the same for any handler list, with handlers of the user that call the loader back (C06_user_partial).
- **C07 Cached handler choices are always the right ones** — state invariant preserved by every handler, lifted to histories.
- **C08 Forward reference registry** — invariant over histories (registry only grows, never rebinds) + one-step equations.
- **C09 A union returns what one of its members returns** — loop invariant on the member loop.
- **C10 A union accepts what any member accepts** — loop invariant; false in general (raw TypeError from fixed tuples), witness + `_partial`, discharged for suiting data by `C10_suits`.
- **C11 Union preference order** — sorted/permutation facts about the member order + loop invariant.
- **C12 A failing union reports every attempt** — loop invariant.
- **C13 uniondebugconflict detects ambiguity exactly** — loop invariant with counting.
- **C14 Optional accepts None** — direct.
- **C15 Iterables are loaded element by element** — induction over the element list; false for length in general (StopIteration), witness + `_partial`.
- **C16 Fixed-size tuples** — induction over the element list.
- **C17 Dictionaries are loaded pairwise** — induction over the items; false in general for keys (cold cache), witness + `_partial`.
- **C18 Missing required fields are always refused** — direct on the object loader for arbitrary class tables.
- **C19 Unknown keys do not influence the result** — induction over the items.
- **C20 failonextra refuses every unknown key** — induction over the items.
- **C21 Objects contain exactly the loaded fields and defaults** — induction over the items.
- **C22 Name mangling is a faithful renaming** — induction over the items.
- **C23 basiccast=False never converts** — induction on fuel with an erasure relation on data. For any handler list that serves the types met as usual: C23_user.
- **C24 Strict success implies permissive success** — two-run induction on fuel (Lemmas/Lax.lean union-free; Lemmas/LaxRun.lean with the unions that leave the permissive loader no choice, in particular Optional); witnesses for other unions.
- **C25 failonextra only rejects** — the same.
- **C26 Literal** — direct.
- **C27 Enum** — direct + induction over hints.
- **C28 Any, NewType and None are transparent** — direct.
- **C29 argparse.Namespace is equivalent to its dictionary** — direct; false for mangled classes, witness.
- **C30 TypedDict required and optional keys** — state invariant on rewritten annotations.
- **C31 The error trace locates the fault** — Hoare-style induction on fuel with a position-following relation on traces. With handlers of the user added to the list (`Candid`): C31_user (`Props/Trace.lean`), the calls they make of the loader being steps of the trace; C31_forthright_counterexample for handlers that raise exceptions about other data.
- **C32 Rendering an error always works** — model of __str__; false in general (foreign exceptions in enum errors; nested paths), witnesses + `_partial`. The path with handlers of the user: C32_path_user (`Props/TraceUser.lean`).
- **C33 Dates** — concrete calendar model.
- **C34 Timedelta** — concrete range model, float part is an oracle.
- **C35 Patterns** — oracle for re.compile; parameter check is dead code: witness + `_partial`.
- **C36 String constructed types** — constructor oracle.
- **C37 attrs converters** — direct; StopIteration witness.
- **C38 Dump produces only plain data** — induction on dumper fuel.
- **C39 hidedefault omits exactly the default-valued fields** — direct on dict of fields. Python's `==` is specified independently in `Spec/Equality.lean` (`Equal`), and the model's `pyEq` is proved to decide it on values that can exist (`pyEq_iff_equal`): C39/C26/C27/C17 `_equal`/`_legal` theorems use it.
- **C40 Dump is the identity on plain data** — induction on data.
- **C41 Dumper dispatch and cache** — state invariant.
- **C42 Dump then load returns the value** — induction on a typing derivation of values, both models.
- **C43 Round trip survives hidedefault** — same, with equality up to Python ==.
- **C44 Renaming is symmetric between dump and load** — direct.
- **C45 Loading terminates** — well-founded order on (size of data, retried types); user handlers may call back on parts of their data; divergence of a circular reference for every fuel.
- **C46 Type predicates** — case analysis over the type language.
- **C47 Module-level load/dump share nothing between calls** — global annotation state threaded through calls.
- **C48 Recursive JSON type is the identity** — structural induction on JSON documents. `C48_json_user` (Props/StockJson.lean): with handlers of the user for other types, through `C83_stock`.
- **C49 Loading plain data twice is the same as once** — induction on types.
- **C50 Discriminators only affect speed and preference** — member-loop facts.
- **C51 Dumping ends** — well-founded recursion on the value gives a fuel bound; converse conditions enumerated by a judgement `Undumpable`.
- **C52 Every dump error is explained** — induction on dumper fuel. `C52_explained_handlers`: with dump handlers of the user for other values, through `C84_stock`.
- **C53 User dump handlers** — induction on the handler list; history by cache invariant relative to type-only conditions.
- **C54 User handlers inside containers** — element loop lemmas with an arbitrary handler for the element type.
- **C55 Tagged unions are unambiguous** — a class accepts only data with one of its literals (C21 + C26 lifted to every later state); two literals equal to the same value are equal; at most one success in the member loop.
- **C56 failonextra keeps unions apart** — C20 lifted to every later state of the load, then the member loop as in C55.
- **C57 schema evolution** — `Newer` relates the types, `Grown` the results; a simulation between two runs of the loader without caches (`Lemmas/Evolve*.lean`, by induction on the fuel of the old run and on `Newer`), transferred to loaders with caches by C06. A class may also change its kind (`KindChange`; that a StopIteration of a field cannot leave an attrs class is `ref_quiet` in `Lemmas/Quiet.lean`). Changes not covered are witnessed false by `C57_*_counterexample`. `C57_evolution_user` (Props/StockEvolve.lean): with handlers of the user for other types.
- **C58 options changed while in use** — `Reachable`/`DReachable` let every past call have been made under other values of the options (`Config.Retuned`), so every theorem about reachable states covers such histories; C58 is C06/C41 for them. Counterexamples for the options that are cached. For any handler list: C58_user (`Props/UserOptions.lean`).
- **C59 threads** — interleaving semantics; rely-guarantee proof: every access of every handler preserves cache coherence and (under the conditions of C06 with names known beforehand) the meaning of names; each thread then computes the reference loader `Ref.load`, as does a call alone. Termination: well-foundedness of the step relation. `Props/ThreadsUser.lean`: the same for any handler list, with handlers of the user that call the loader back (C59_user_partial).
- **C60 shared loader, right answers** — `StepSem` (the one-step relation used for C03/C05/C23/C31/C32) holds of the interleaved programs too: `TSat`, a rely-guarantee version of `Sat` with invariant `Fine` (caches coherent, every known name denotes a type of that name that some call meets); then the same step lemmas. Traces with handlers of the user: C60_trace_user.
- **C61 order of the keys** — `Spec/Shuffle.lean` defines `Shuf`, the same data with the keys in another order at any depth; the proof compares two runs of the reference loader (`Agree`: both return values related by `Shuf`, or both raise), handler by handler (`Lemmas/Shuffle*.lean`), by induction on the nesting of the calls (C45), and moves the result to the real loader with C06's refinement. `C61_json`: for every json value and sturdy type without casts, whatever failonextra. `C61_strict_user`, `C61_json_user` (Props/StockOrder.lean): with handlers of the user for other types.
- **C62 stack, memory, time** — `loadFaulty F` is the loader in which the handler calls listed by an arbitrary `F` raise; relation `Fl` (what the faulty run returns, the reference loader returns with enough fuel) handler by handler, `Lemmas/Faults.lean`; a union needs the hypothesis that at most one member does not refuse. With handlers of the user for other types: `C62_optional_user`, `C62_no_wrong_value_user_partial` (Props/StockFaults.lean).
- **C63 abandoned loads** — states in the middle of a call are `Reachable.shared`, those after a faulty load `Reachable.faulted`; coherence is preserved by every single access, then C06. For any handler list: C63_user (`Props/UserOptions.lean`).
- **C64 basic types** — the step of `_basicload` computed as a function of `W.call` (Python's constructors, a parameter), then `leaf_loads`/`leaf_raises`.
- **C65 shared Dumper** — `Model/DumpThreads.lean`: the dump handlers as programs of single accesses; `DK`: relying on coherent caches, every program ends as the dumper without caches does and keeps them coherent, hence for all threads and moments (`DAllSafe`); termination by well-foundedness of the programs.
- **C66, C67 hidedefault and isodates** — `Variant` relates two dumps (entries left out / dates replaced); induction on the fuel of the dumper without caches, loops over accumulators related entry by entry (`Paired`) or, when entries are left out, with the keys to come being new (`AccOk`). `C66_leaves_out_handlers` and `C67_only_dates_handlers`: the same two comparisons for two dumpers with handlers of the user (`UsualDumps`) that differ in the one option, for values and types the user's handlers never meet, through `C84_stock_state`.
- **C68 Dump returns new objects** — `Model/DumpObjects.lean` is the dumper on values with addresses, every `[...]`, `{...}` of the code taking the next one; `at_dump` (induction on fuel) relates it to the dumper model and bounds the addresses (`Fresh`).
- **C69, C70 Load returns new objects and does not modify the data** — `Model/LoadObjects.lean` is the loader on values with addresses: every container the code makes takes the next address, every
  write (filling a list, `d[k] = v`, setting attributes) is logged; caches and exceptions are those of the loader model. `ASim.run` (induction on fuel, handler by handler) shows that it does
  what the loader does, that what it returns is new or from the data or a shared default (`Own`), and that only new objects are written to (`Kept`).
- **C71 Dump handlers of the user inside containers and objects** — `Props/DumpInside.lean`: for every handler list obeying `ByType`, through the cache-free reference dumper (as C53), one theorem per container.
- **C72 Generators are loaded like lists** — `Model/Generators.lean`: the handlers with the remaining elements of the generator as state; `Props/Generators.lean`: simulation of the element loop on the generator by the one on the list, and a suffix invariant (`GKeep`) for unions.
- **C73 The result is the data, converted place by place** — `Spec/Conversion.lean`: an inductive relation `Converts v t r` with no handlers, caches or states; `Lemmas/Conversion.lean`: one step of the loader keeps it (StepSem), so by the induction principle for loads it holds of every result; the same with the principle for interleavings. For handler lists with handlers of the user for other types: C73_user_partial, C73_user_threads_partial (all types met are `Usual`, conditions do not raise).
- **C74 Data is accepted exactly when it has a conversion** — `Spec/Completeness.lean` lists the situations excluded; `Lemmas/Completeness.lean`: StepSem for `accepted → Converts` together with `refused → no conversion` (the second needs the first at unions and sets); `Lemmas/Unique.lean`: conversions are unique when the annotation leaves no choice, by induction on the conversion. The `_user_` theorems allow handlers of the user for other types (`Usual` on every type met), calm conditions; `C74_history_user_partial`: two histories, same names, same value.
- **C75 What dump returns is the value place by place, exactly** — `Spec/Dumping.lean` defines `Dumped` without handlers or caches; `Lemmas/Dumping.lean`: one step of the dumper is one step of `Dumped` (all handlers), then induction on the fuel in one direction and on `Dumped` in the other; through `dumps_ref` for histories, `C65_alone` for threads, `C51_ends` for refusals.
- **C76 What load returns is a well-formed value** — `Spec/Wellformed.lean` says what the parts of the world that the user supplies must return (`World.Makes`, `Script.Makes`); each handler step keeps `Legal`, by `legal_step` and induction on the fuel, for any handler list; through `C65_alone`-style scheduling lemma for threads; `C76_load_dump` feeds the result to a dumper. `C76_dump_handlers`, `C76_load_dump_handlers`: a dumper with handlers of the user (`UsualDumps`) that its value never meets, also after a loader with any handlers.
- **C77 What was loaded can be dumped** — `Spec/Dumpable.lean` (`Dumpable`, `KeyTy`, `DumperFor`, `HonestHints`); induction on the conversion of C73: every constructor keeps `Dumpable` and `Truthful`; then C76 (the result exists), C51 (dump raises only for a reason), C75 (what keys are dumped as) and C38 (dumps are plain). Counterexamples for tuple and date keys. `C77_*_user_partial`: with handlers of the user for other types that make only values that can exist.
- **C78 What was loaded, written and loaded again is the same value** — `Spec/ReadBack.lean` (`ReadsBack`); induction on the conversion of C73 of the first load, inverting the relation `Dumped` of C75 at each place, shows that the dump has the loaded value as a conversion; then C74 (exactly the conversion is returned).  `C76_dump` (what dump returns is well-formed) supplies the distinct keys. `C78_*_user_partial`: with handlers of the user for other types.
- **C79 Dumps do not depend on the string hashes** — `World.setOrder` (iteration order of a set of strings) and `World.popChoice` (`set.pop`) are the parameters that differ between processes (`World.reseed`, `Spec/HashSeed.lean`); induction on `Dumped` (C75) builds the dump of the other process and the relation `SameButOrder`.
- **C80 Loading does not depend on the string hashes** — the specification `Converts` of C73 and the conditions of C74 are carried from `W` to `W.reseed` (induction on each relation), then C74 in both processes. `C80_*_user_partial`: with handlers of the user for other types.
- **C81 The order of the members of a union** — `Reordered` (Spec/Reorder.lean) relates annotations, `World.Reorders` class tables; `Converts` of C73 and the conditions of C74 are carried over (induction on each relation), then C74 for both programs.
- **C82 Widening annotations** — `Widened` (Spec/Widen.lean) relates annotations, `World.Widens` class tables; `Converts` of C73 is carried over by induction, C74 for the new program. `C82_*_user_partial`: with handlers of the user for other types.
- **C83 Load handlers are local** — `SameAt` (Lemmas/Local.lean): two runs of the model with handler lists that choose alike on a closed set of types (`Meets`) are equal, outcome and state, by induction on fuel; then insertion and removal in the list. Types met are defined inductively, so recursive classes are covered. `C83_stock_state`, `C83_stock` (Props/Stock.lean): a loader with handlers of the user, used only with types for which it chooses as usual, is in a state of a loader with the default list, and does exactly the same; with it `C42_round_trip_user`, `C43_round_trip_user`, `C49_idempotent_user_partial`, `C24_user_partial`, `C25_user_partial`. Also when calls fail in the middle, the same ones in both loaders (`C83_same_choice_faults`, `C83_stock_faults`): `SameAt` holds of `runFaulty` by the same induction, with the same fault in both. Props/StockUnions.lean carries over to loaders with handlers of the user for other types (`UsualHistory`): tagged unions (`C55_*_user`) and unions of classes (`C56_*_user`), `C45_circular_user`, `C05_sturdy_user`, `C05_json_user`, `C24_optional_user_partial`, `C25_optional_user_partial`, `C42_values_user_partial`, `C43_values_user_partial`. Their hypotheses on types and data mention `C.stock`, the same configuration with the default list of handlers: of it they read the options only.
- **C84 Dump handlers are local** — the same for the dumper (`DSame`, `DMeets`); partial because of the shortcut that looks at the head of the list. `C84_stock_state`, `C84_stock` (Props/StockDump.lean): a dumper with handlers of the user, used only with values for which it chooses as usual, is in a state of a dumper with the default list, and does exactly the same; with it `C38_plain_handlers`, `C40_identity_handlers`, `C41_history_handlers`, `C51_ends_handlers`, `C51_dumps_handlers`, `C75_exact_handlers`, `C75_refused_handlers`, and, with a loader that has handlers of the user too, `C42_round_trip_handlers`, `C43_round_trip_handlers`.
- **C85 Options that name types are local** — the two-run equality of C83 (`SameAt.run`) for configurations that may also differ in `strconstructed`, `basictypes` and `mangle_key` (`Config.Agree`), instantiated for each option.
