#!/usr/bin/env python3
"""Regenerates /verif/properties.jsonl (one JSON object per line)."""
import json, os
DL='typedload/dataloader.py'; DD='typedload/datadumper.py'; EX='typedload/exceptions.py'; TC='typedload/typechecks.py'; IN='typedload/__init__.py'
P=[]
def p(title, statement, quantifier, why, *anchors):
    P.append(dict(id='C%02d'%(len(P)+1), title=title, statement=statement, quantifier=quantifier, why_tests_cant=why, anchors=list(anchors)))

p('Handler dispatch is first-match',
  'Loader.index(T) returns the position of the first handler whose condition accepts T, and load uses exactly that handler; if no condition accepts T, load raises TypedloadTypeError. A handler inserted at position index(T) whose condition accepts T takes over T.',
  'every handler list (default or custom), every type',
  'the handler list is user-extensible; tests exercise a handful of lists and types',
  DL+':Loader.index', DL+':Loader.load')
p('raiseconditionerrors',
  'With raiseconditionerrors=True the first condition that raises before a match makes the lookup raise that error; with False a raising condition is exactly equivalent to one returning False.',
  'every handler list with arbitrarily raising conditions, every type',
  'the position and the class of the raising condition are unbounded',
  DL+':Loader.index', DD+':Dumper.index')
p('A loaded value has the requested type',
  'If load(value, T) returns r, then r is an instance of T in the sense of the type language: containers hold elements of the right type, tuples have the right arity, objects have every field with a value of its declared type or its declared default, literals equal an allowed value, unions belong to a member. A value declared of a basic type is exactly of that type, and not of a subclass (True is no int), except for the elements, keys and values directly in a collection or Dict of that type.',
  'every value, every type built from the supported constructors to any depth (recursive types via ForwardRef included), every configuration, every loader state',
  'the space of (type, value, loader history) triples is infinite and nested; a single unchecked path (e.g. a fast path) breaks it',
  DL+':Loader.load', DL+':_dictload', DL+':_iterload', DL+':_objloader', DL+':_patternload')
p('What can escape load()',
  'Whatever happens inside the (default) handlers, an exception leaving Loader.load is either a TypedloadException or the AssertionError raised by the internal assertion; no raw ValueError/TypeError/AttributeError/KeyError of a handler leaves load.',
  'every value, type, configuration with non-raising conditions, and loader state',
  'ranges over all failure points of all handlers at all depths',
  DL+':Loader.load')
p('Every load failure is a TypedloadException',
  'If load(value, T) fails then it raises a TypedloadException (docs/errors.md: "All exceptions are subclasses of TypedloadException").',
  'every value, every supported type, every configuration',
  'must hold for every malformed input; it is false at several specific points that the test-suite never hits',
  DL+':Loader.load', DL+':_tupleload', DL+':_unionload', DL+':_objloader', DL+':_datetimeload', DL+':_timedeltaload', DL+':_get_attr_converter_type', 'docs/errors.md')
p('Reusing a loader does not change results',
  'Loading value into T with a loader that has already performed any sequence of loads gives the same outcome as loading it with a fresh loader of the same configuration.',
  'every finite history of loads on the loader, every value, every type',
  'quantifies over histories of cache contents',
  DL+':Loader.load', DL+':_dictload', DL+':Loader.__init__', IN+':load')
p('Cached handler choices are always the right ones',
  'After any history of loads the handler remembered for a type is the handler Loader.index selects for it, and cached class descriptions equal freshly computed ones, and so do union discriminators, unless a program writes a tagged union in two orders or hides a Literal behind NotRequired (then they are those of another spelling of the union, or of an earlier moment); a remembered choice never changes afterwards.',
  'every history of loads (successful or failing), every type',
  'an invariant over unbounded histories with failures at arbitrary points',
  DL+':Loader.load', DL+':_dataclassload', DL+':_unionload')
p('Forward reference registry',
  'A name once present in frefs is never rebound by loading; loading a ForwardRef whose name is unknown raises TypedloadValueError, with frefs=None it raises TypedloadException, and a known name behaves as loading the registered type.',
  'every history, every name, every value',
  'first-registration-wins must survive every history',
  DL+':_forwardrefload', DL+':Loader.load')
p('A union returns what one of its members returns',
  'If load(value, Union[ts]) returns r then either value already has the exact type of a basic member and r is value, or some member t of ts accepts the value and r is what loading into t produced.',
  'every member list, value, configuration and state',
  'members can be arbitrary types, order and discriminators change the path taken',
  DL+':_unionload')
p('A union accepts what any member accepts',
  'If some member of the union accepts the value, then loading into the union succeeds (uniondebugconflict off).',
  'every member list, value, configuration and state',
  'depends on the failure mode of every other member',
  DL+':_unionload', DL+':_tupleload')
p('Union preference order',
  'A value whose exact type is a basic member is returned unchanged; otherwise non-basic members are tried before basic ones, in declaration order, except that a member selected by a shared Literal discriminator field of the data is tried first; every member is tried exactly once, so the order never removes a candidate. If exactly one member accepts the value the result is that member\'s, whatever the order.',
  'every member list, every value, every choice of discriminator key',
  'permutations of members and discriminator tables are unbounded, and the discriminator key is picked by set.pop',
  DL+':_unionload', TC+':discriminatorliterals')
p('A failing union reports every attempt',
  'When no member accepts, the TypedloadValueError raised lists in .exceptions exactly one exception per member, in the order tried, each with a first trace item naming the member and the value.',
  'every member list, every value that no member accepts',
  'number of members and nested failures are unbounded',
  DL+':_unionload', EX+':TypedloadException')
p('uniondebugconflict detects ambiguity exactly',
  'With uniondebugconflict the union load succeeds iff exactly one member accepts (or the exact-basic-type shortcut applies); with two or more accepting members it raises TypedloadTypeError.',
  'every member list and value for which members fail only with TypedloadExceptions',
  'counts acceptances over an arbitrary member list',
  DL+':_unionload')
p('Optional accepts None',
  'load(None, Optional[T]) is None for every T, and a value of exact basic type T is returned unchanged.',
  'every T (even types with no handler or that would accept None differently), every configuration with NoneType basic',
  'T is arbitrary',
  DL+':_unionload', TC+':is_optional')
p('Iterables are loaded element by element',
  'load(value, List/Set/FrozenSet/Tuple[T, ...]) succeeds only if every element either is an instance of a basic T (or has exact type among basic union members) or is accepted by T; the result holds the outcomes in order (deduplicated for sets) and for lists and tuples has the same length as the input; dictionaries are always refused; the error for a bad element carries the index of the first bad element.',
  'every input length, element type, and position of the failing element',
  'position and length are unbounded; a handler-level StopIteration silently truncates the list',
  DL+':_iterload')
p('Fixed-size tuples',
  'A successful load into Tuple[T1..Tn] returns a tuple of exactly n elements, element i loaded into Ti; a shorter value always fails with ValueError; a longer value fails with ValueError under failonextra and otherwise its tail has no influence on the result.',
  'every n, every value length, every tail',
  'lengths and tails unbounded',
  DL+':_tupleload')
p('Dictionaries are loaded pairwise',
  'load(value, Dict[K, V]) succeeds only if every key is accepted by K and every value by V, and the result maps the loaded keys to the loaded values (last one wins), with nothing added.',
  'every dictionary, every K and V, cold and warm loader',
  'cold/warm cache and the fast/slow path interplay with data of any size',
  DL+':_dictload')
p('Missing required fields are always refused',
  'Loading into a NamedTuple/dataclass/TypedDict from data lacking (after name mangling) any required field never returns a value; it raises TypedloadValueError.',
  'every class definition, every dictionary, every configuration and state',
  'class definitions and data are arbitrary',
  DL+':_objloader', DL+':_namedtupleload', DL+':_dataclassload', DL+':_typeddictload')
p('Unknown keys do not influence the result',
  'With failonextra=False, removing every key that is not a (mangled) field name from the data leaves the outcome of loading into an object type unchanged.',
  'every class, every dictionary with arbitrary extra keys and values at arbitrary positions',
  'extra content is arbitrary',
  DL+':_objloader', DL+':_mangle_names')
p('failonextra refuses every unknown key',
  'With failonextra=True a dictionary containing any key that is not a field (or is the Python name of a renamed field) is never loaded into an object type; if all keys are strings the error is a TypedloadValueError.',
  'every class, dictionary, position of the extra key',
  'arbitrary extra keys, including non-string ones, for which the error path itself breaks',
  DL+':_objloader', DL+':_mangle_names')
p('Objects contain exactly the loaded fields and defaults',
  'A successfully loaded NamedTuple/dataclass/attrs object has, for each field, the loaded value of the data under that field\'s (mangled) key when present, and the declared default otherwise.',
  'every class definition, every dictionary',
  'field lists, names and data are arbitrary',
  DL+':_objloader', DL+':_dataclassload', DL+':_attrload', DL+':_namedtupleload')
p('Name mangling is a faithful renaming',
  'With renamed fields, the data key is used and the Python name is not accepted; renaming never loses or merges fields of the data (names swapped between fields included), and an empty map leaves the data untouched.',
  'every name map with distinct Python names, every dictionary',
  'renaming maps may permute or overlap with field names in any way',
  DL+':_mangle_names', DL+':_dataclassload', DL+':_attrload')
p('basiccast=False never converts',
  'With basiccast=False loading into a basic type succeeds iff the value has exactly that type and then returns it unchanged; more generally, for types built from basic types, Literal, Any, Optional/Union, NewType and containers, the loaded data equals the input data up to the container class.',
  'every value, every type of the fragment, any nesting depth',
  'deep nesting',
  DL+':_basicload', DL+':_iterload', DL+':_dictload', DL+':_unionload')
p('Strict success implies permissive success',
  'If a load succeeds with basiccast=False it succeeds with basiccast=True and returns the same value, for union-free types; with unions it may return a different member.',
  'every value, every union-free type, any depth',
  'relates two configurations on all inputs',
  DL+':_basicload', DL+':_unionload')
p('failonextra only rejects',
  'If a load succeeds with failonextra=True it succeeds with failonextra=False with the same result, for union-free types; with unions it may differ.',
  'every value, every union-free type, any depth',
  'relates two configurations on all inputs',
  DL+':_objloader', DL+':_tupleload', DL+':_mangle_names')
p('Literal',
  'load(value, Literal[...]) succeeds iff value equals an allowed literal and then returns the value itself; otherwise TypedloadValueError.',
  'every literal set and every value',
  'equality crosses types (True == 1 == 1.0)',
  DL+':_literalload')
p('Enum',
  'A successful enum load returns a member of the enum whose value equals the input (or which _missing_ returns for it) or equals the input loaded into one of the annotated types; a value equal to a member value always loads to the first such member; a value that no member has loads to the member that _missing_ of the class returns, if it returns one; dumping a member and loading it back returns a member with an equal value.',
  'every enum definition, value, hints',
  'members and hints arbitrary',
  DL+':_enumload', DD+':Dumper')
p('Any, NewType and None are transparent',
  'load(v, Any) is v; loading into NewType(name, T) is loading into T (same result, same exception class); load(v, NoneType) succeeds iff v is None.',
  'every value, every T, every configuration and state',
  'T and v arbitrary',
  DL+':_anyload', DL+':_newtypeload', DL+':_noneload')
p('argparse.Namespace is equivalent to its dictionary',
  'With dictequivalence, loading a Namespace into Dict[K,V] or into an object type gives the same outcome as loading the dictionary of its attributes; with dictequivalence=False it is refused with TypedloadAttributeError.',
  'every namespace, every class, every K,V',
  'arbitrary attributes and classes; false for classes with renamed fields',
  DL+':_dictequivalence', DL+':_objloader', DL+':_dictload', DL+':_mangle_names')
p('TypedDict required and optional keys',
  'A TypedDict load succeeds only if all required keys are present, never requires NotRequired keys, returns a dict with only declared keys, and loading repeatedly (which rewrites the class annotations) never changes which keys are required or how they are loaded.',
  'every TypedDict definition, dictionary, and number of previous loads',
  'in-place rewriting of __annotations__ makes this a history property',
  DL+':_typeddictload', TC+':is_notrequired')
p('The error trace locates the fault',
  'For every TypedloadException leaving load, the annotations of its trace, followed from the root value (index, field, key, value; unions, forward references and the root step stay in place), designate an existing position inside the data, and, when the type is supported, the first trace item carries the value and type passed to load (an unsupported type gives an empty trace).',
  'every failing load: every type, value, depth and failure point',
  'all failure points at all depths',
  DL+':Loader.load', DL+':_iterload', DL+':_tupleload', DL+':_objloader', DL+':_unionload', EX+':TraceItem')
p('Rendering an error always works',
  'str(e) returns a message for every TypedloadException raised by load, starting with the description followed by "Path: " and the path, and listing every sub-exception of unions with its path from the root.',
  'every exception tree load can raise',
  'exception trees nest without bound; enum hints put foreign exceptions in the tree',
  EX+':TypedloadException.__str__', EX+':TypedloadException._subexceptions', EX+':TypedloadException._path', DL+':_enumload')
p('Dates',
  'Every date/time/datetime without timezone dumped as a list of ints loads back to itself, every list loaded into a date satisfies the calendar constraints (month 1-12, day within month, leap years), invalid lists fail; isodates round-trips through the ISO functions; timezone-aware values are refused by the list format.',
  'every calendar date and time, every list of ints',
  'all dates including leap days and range limits, and all ints (overflow)',
  DL+':_datetimeload', DD+':_datetimedump')
p('Timedelta',
  'A loaded timedelta of an int n is exactly n seconds; out-of-range input is refused; dump/load of a timedelta returns it whenever total_seconds is exact.',
  'every int',
  'range limits at both ends',
  DL+':_timedeltaload', DD+':_timedeltadump')
p('Patterns',
  'Loading a str or bytes into a Pattern either returns a pattern whose source is that value or raises TypedloadException; Pattern[bytes]/Pattern[str] only accepts that kind of source; dump returns the source.',
  'every source value, every parameter',
  'the parameter check must hold for all values',
  DL+':_patternload', DD+':_patterndump')
p('String constructed types',
  'For a type in strconstructed, load(v) is the type called on v, and any exception of the constructor becomes the corresponding TypedloadException; dump is str(); load(dump(x)) == x whenever the type reconstructs itself from its str.',
  'every strconstructed set, every constructor behaviour, every value',
  'constructor behaviour arbitrary',
  DL+':_strconstructload', DD+':Dumper')
p('attrs converters',
  'For an attrs field with a converter the data is loaded into the converter\'s parameter type (Any if untyped); other fields use their declared type.',
  'every attrs class and converter signature',
  'signatures arbitrary; a return-only annotated converter breaks it',
  DL+':_get_attr_converter_type', DL+':_attrload')
p('Dump produces only plain data',
  'If dump(v) returns d then d consists only of basic types, lists and dictionaries with such contents (bytes patterns aside), provided list annotations of dataclass fields are truthful.',
  'every value, any depth, every configuration',
  'any nesting of objects, sets, enums, dates',
  DD+':Dumper.dump', DD+':_iteratordump', DD+':_dataclassdump', DD+':_namedtupledump', DD+':_attrdump')
p('hidedefault omits exactly the default-valued fields',
  'With hidedefault a field of an object appears in the dump iff it differs from its declared default (or has none); with hidedefault=False every field appears; in both cases nothing else appears, under the mangled name.',
  'every class, every instance',
  'fields and defaults arbitrary',
  DD+':_dataclassdump', DD+':_namedtupledump', DD+':_attrdump')
p('Dump is the identity on plain data',
  'dump(d) == d for plain data (basic types, lists, dicts), hence dump(dump(v)) == dump(v).',
  'all plain data of any depth; all dumpable v',
  'depth unbounded',
  DD+':Dumper.dump')
p('Dumper dispatch and cache',
  'Dump handler choice depends only on the type of the value: after any history of dumps, the cached choice equals the first matching default handler; a value that no handler matches raises TypedloadValueError. With any list of handlers, the conditions are tried in order on the first value of a class, raising ones are skipped when raiseconditionerrors is off, and the error for a value without handler carries the value and its class (a bare TypeError when the value is a tuple of other than one element).',
  'every history, every value',
  'history of caches',
  DD+':Dumper.index', DD+':Dumper.dump')
p('Dump then load returns the value',
  'load(dump(v), T) == v for every v of type T (basic types, enums with plain distinguishable values, lists, sets, tuples, dicts with string-like keys, NamedTuple, dataclass with init fields, TypedDict, Optional, tagged unions, dates, strconstructed, patterns).',
  'every value of every type in the fragment, any nesting depth, default configuration',
  'all values of all types',
  DD+':Dumper.dump', DL+':Loader.load', 'docs/supported_types.md')
p('Round trip survives hidedefault',
  'The round trip holds both with hidedefault enabled and disabled: omitted fields come back as the default they were equal to.',
  'every class with defaults, every instance',
  'defaults may be equal but not identical to the value',
  DD+':_dataclassdump', DL+':_objloader')
p('Renaming is symmetric between dump and load',
  'The keys written by dump for renamed fields are exactly the keys load expects, for dataclasses (with non-empty external names) and attrs.',
  'every class with renamed fields with pairwise distinct external names',
  'maps arbitrary; an empty external name breaks it for dataclasses',
  DD+':_dataclassdump', DD+':_attrdump', DL+':_dataclassload', DL+':_attrload')
p('Loading terminates',
  'load terminates on every value for every type whose forward references / unions / NewTypes are not circular without consuming data (a one-character string contains itself, so taking its elements does not consume it); a circular forward reference does not terminate.',
  'every value of every size, every recursive type',
  'termination on all inputs',
  DL+':Loader.load', DL+':_forwardrefload', DL+':_unionload')
p('Type predicates',
  'Every type predicate holds exactly of the types of its form (is_list: List[T] and List; is_optional: a union of two members one of which is None, hence also is_union; ...); uniontypes, literalvalues and discriminatorliterals return the members, values and tag fields as written; the default loader handler chosen for a type is the one responsible for its form. For the supported type language each type is accepted by at most one default loader condition apart from NoneType (None handler wins over basic); so reordering the other default handlers does not change dispatch.',
  'every type',
  'all types',
  TC+':is_optional', TC+':is_union', DL+':Loader.__init__')
p('Module-level load/dump share nothing between calls',
  'typedload.load(v, T, **kw) equals Loader(**kw).load(v, T) on a fresh loader, whatever calls were made before.',
  'every sequence of earlier calls',
  'hidden global state (rewritten TypedDict annotations) must not matter',
  IN+':load', IN+':dump', DL+':_typeddictload')
p('Recursive JSON type is the identity',
  'With frefs {"Json": Union[int, float, str, bool, None, List["Json"], Dict[str, "Json"]]} and basiccast=False every JSON document loads to itself.',
  'every JSON document of any size and depth',
  'documents unbounded',
  DL+':_unionload', DL+':_forwardrefload', DL+':_dictload', 'tests/test_dataloader.py:TestUnion.test_json')
p('Loading plain data twice is the same as once',
  'For types built from basic types and containers, loading the result again into the same type returns it unchanged (idempotence), with or without basiccast.',
  'every value, every type of the fragment',
  'depth unbounded',
  DL+':_basicload', DL+':_iterload', DL+':_tupleload', DL+':_dictload')
p('Discriminators only affect speed and preference',
  'If the data\'s discriminator value selects a member and that member accepts the data, the union returns that member\'s result; whatever the discriminator says, a union accepts exactly the data that one of its members accepts (when the discriminator value is hashable and no member crashes on the data in the sense of C05).',
  'every tagged union, data, and pop choice',
  'discriminator tables and data arbitrary',
  DL+':_unionload', TC+':discriminatorliterals', TC+':literalvalues')
p('Dumping ends, and succeeds on everything that has a handler',
  'dump terminates on every value; it returns data unless the value contains (at any depth) an object of a class without handler, a time or datetime with a timezone without isodates, or a dictionary key that dumps to something unhashable.',
  'every value, every annotation, every dumper history',
  'values unbounded; needs induction over the value',
  DD+':Dumper.dump', DD+':_datetimedump', DD+':_dictdump')
p('Every dump error is explained by the value',
  'If dump raises, there is an object inside the value that explains it: TypedloadValueError carries as value an object of a class without handler, NotImplementedError comes from a time with a timezone without isodates, TypeError from an unhashable dumped key; nothing else is raised.',
  'every value, every annotation, every dumper history',
  'must hold at any depth',
  DD+':Dumper.dump', DD+':_datetimedump', DD+':_dictdump')
p('Dump handlers added by the user',
  'Dumper.index(v) is the position of the first handler whose condition holds; a user handler inserted before the one in use takes over, dumping is calling it; errors in conditions are raised or count as false according to raiseconditionerrors; after any history of dumps the outcome is the same, provided the conditions look only at the type of the value (the choice is cached by type).',
  'every handler list, value, dumper history',
  'history of caches; arbitrary handler lists',
  DD+':Dumper.index', DD+':Dumper.dump', 'docs/origin_story.md')
p('Handlers added by the user are used inside containers',
  'If the handler selected for T is one of the user, then an iterable loads into List[T] or Tuple[T, ...] exactly when that handler accepts every element, and the result holds what it returns, for T not basic; for a basic T, elements that are already instances of T bypass the handler.',
  'every handler, every iterable, every loader history',
  'lengths and histories unbounded',
  DL+':_iterload', DL+':Loader.index')
p('Tagged unions are unambiguous',
  'If all members of a union are classes with a mandatory field under the same data key annotated with Literals, and no two members share a literal, then what the union returns was made by the member owning the literal in the data; other members refuse the data; data without the tag or with an unknown tag is refused; the error of conflicting members never occurs, and uniondebugconflict changes nothing.',
  'every tagged union, every data, every loader history, any order of members',
  'docs/performance.md and docs/supported_types.md promise that conflicts are impossible; number of members and shape of the classes unbounded',
  DL+':_unionload', DL+':_objloader', TC+':discriminatorliterals', 'docs/supported_types.md')
p('failonextra keeps unions of classes apart',
  'With failonextra, what a union of classes returns was made by a member that has a field for each key of the data; if only one member has, the result is its result, and the error of conflicting members never occurs.',
  'every union of classes, every data, every loader history',
  'relies on every member checking its keys, whatever the order and the caches',
  DL+':_unionload', DL+':_objloader', DL+':_mangle_names', 'docs/supported_types.md')
p('Schema evolution: old data stays loadable',
  'If a class gets fields that are not required, if a class changes its kind (a NamedTuple, a dataclass and an attrs class may replace each other, and may replace a TypedDict), if a Literal gets values, if a class or a collection becomes optional, anywhere inside a schema (in lists, tuples, dictionary values, NewTypes, forward references, fields, recursively), then the data the old schema accepted and in which no key is the key of an added field is accepted by the new schema, and the result is the same but for the added fields, which have their defaults. (Proviso: the conditions under which a load does not depend on the history of the loader, see C06: no bool meets a Dict with int keys or values, tagged unions are written in one order only, forward references mean the same for both loaders.)',
  'every pair of schemas related in this way, every data, every two loader histories, failonextra or not',
  'ranges over all schemas, all changes and all data, recursively',
  DL+':_objloader', DL+':_dataclassload', DL+':_attrload', DL+':_namedtupleload', DL+':_typeddictload', DL+':_unionload', DL+':_forwardrefload', DL+':Loader.load')
p('Options can be changed while in use',
  'Assigning basiccast, failonextra, dictequivalence or uniondebugconflict of a Loader, or hidedefault, isodates or mangle_key of a Dumper, takes effect at the next call: after any history of calls under any values of these options the outcome is that of a new object with the present options. (For a Loader: under the conditions of C06, without which even a Loader whose options never change differs from a new one. mangle_key of a Loader, basictypes and handlers are remembered and must be set before first use.)',
  'every history of loads (dumps) interleaved with assignments of options, every value and type within the conditions of C06',
  'interleavings of calls and assignments are unbounded; each cache could have captured an option',
  DL+':Loader.__init__', DL+':Loader.load', DL+':_dataclassload', DL+':_objloader', DD+':Dumper.__init__', DD+':Dumper.dump', DD+':_dataclassdump')
p('A Loader can be shared by threads',
  'Threads that call load on one Loader at the same time do not disturb each other: however their accesses to its caches interleave, each call returns (raises) what it returns (raises) when made alone; no call waits for another for ever, and each finishes.',
  'every number of threads, every value and type, every loader history, every interleaving of the accesses',
  'a test sees a few of the interleavings; the loader has four caches and a name table that are all filled without locks',
  DL+':Loader.load', DL+':_forwardrefload', DL+':_iterload', DL+':_dictload', DL+':_unionload', DL+':_dataclassload', DL+':_typeddictload')
p('What a shared Loader returns and raises is right',
  'When threads call load on one Loader at the same time, whatever the interleaving and even when first uses of the same type or name race: what a call returns is an instance of the type it asked for; what it raises is a TypedloadException unless the data and the type of that call are a reason for something else; the trace starts with the data of that call and leads to the culprit; the text of the exception can be made; with basiccast=False nothing is converted.',
  'every number of threads, every value and type, every loader history, every interleaving of the accesses, handlers of the user included',
  'a wrong interleaving would show up only under load; races on the caches and on the name table cannot be enumerated',
  DL+':Loader.load', DL+':_forwardrefload', DL+':_unionload', DL+':_dataclassload', DL+':_typeddictload', 'typedload/exceptions.py:TypedloadException')
p('The order of the keys in the data does not matter',
  'Data that differs only in the order of the keys of its dictionaries, at any depth, is loaded into the same value (up to the order of the keys of the dictionaries in the result), or refused in both orders.',
  'every pair of data related in this way, every type (recursive ones included), every loader history',
  'the orders of the keys at all depths cannot be enumerated; handlers iterate over dictionaries and stop at the first error',
  DL+':_objloader', DL+':_dictload', DL+':_unionload', DL+':_mangle_names', DL+':Loader.load')
p('Running out of stack, memory or time never yields a wrong value',
  'If calls made while loading fail for reasons outside of typedload (RecursionError on deep data, MemoryError, an exception from a signal handler), then load raises, or returns the value it returns when nothing fails. (The stack available when load is called does not decide which value is returned.)',
  'every value and type, every loader history, every set of calls that fail and every exception they raise',
  'the points at which the stack or the memory ends cannot be enumerated; the loader catches exceptions in several places and goes on',
  DL+':_iterload', DL+':_dictload', DL+':_objloader', DL+':_unionload', DL+':_enumload', DL+':Loader.load')
p('A Loader whose load was abandoned remains usable',
  'When a load is interrupted at any point (KeyboardInterrupt, a thread that is never resumed) or some of its calls fail for reasons outside of typedload, the Loader gives afterwards the results, and raises the exceptions, that it gave before, for every load that satisfies the conditions of C06 (without which this fails already for a load that is not abandoned).',
  'every point of interruption, every set of failing calls, every loader history, every value and type within the conditions of C06',
  'crash points cannot be enumerated; the caches are filled without locks or transactions',
  DL+':Loader.load', DL+':_forwardrefload', DL+':_iterload', DL+':_dictload', DL+':_unionload', DL+':_dataclassload', DL+':_typeddictload')
p('Basic types are converted by calling them',
  'load(value, T) for a basic type T returns the very value when type(value) is T; otherwise, with basiccast, it returns T(value), a ValueError of the conversion becoming TypedloadValueError, a TypeError TypedloadTypeError and any other exception TypedloadException; without basiccast it raises TypedloadValueError. The exception carries the value, the type and a trace of one entry.',
  'every value, every basic type, both values of basiccast, every loader history',
  'ranges over all values; what the constructor does with each is arbitrary',
  DL+':_basicload', DL+':Loader.load')
p('A Dumper can be shared by threads and abandoned',
  'When threads call dump on one Dumper at the same time, then whatever the interleaving of their accesses to the caches each call returns (raises) what it returns (raises) when made alone, and all calls finish; at every moment, also after calls were abandoned half-way (KeyboardInterrupt, RecursionError), the Dumper dumps as a new one does. (Conditions of user-supplied handlers look only at the type of the value, as the cache requires.)',
  'every number of threads, every value, every dumper history, every interleaving of the accesses, every point of interruption',
  'schedules and crash points cannot be enumerated; the caches are filled without locks',
  DD+':Dumper.dump', DD+':_dataclassdump', DD+':_iteratordump')
p('hidedefault only leaves entries out',
  'Whatever can be dumped with hidedefault=False can be dumped with hidedefault=True, and the result is the same data with entries of dictionaries left out, at any depth: nothing is added, renamed, reordered or changed otherwise (if no two fields of a class are dumped under the same name).',
  'every value at every depth, every dumper history',
  'relates two dumps of every value; nesting is unbounded',
  DD+':_namedtupledump', DD+':_dataclassdump', DD+':_attrdump', DD+':_iteratordump', DD+':Dumper.dump')
p('isodates only changes dates',
  'Whatever can be dumped with isodates=False can be dumped with isodates=True, and the result is the same data except that the lists of integers standing for dates, times and datetimes are replaced by ISO strings, at any depth.',
  'every value at every depth, every dumper history',
  'relates two dumps of every value; nesting is unbounded',
  DD+':_datetimedump', DD+':Dumper.dump')
p('Dump returns new objects',
  'The lists and dictionaries that dump returns are all new objects: none of them existed before the call (so none is shared with the dumped value, with a class default or with the value of an enum member), and none is at two places of the result. Changing the result in place changes nothing else. (If the annotations of dataclasses tell the truth, as in C38.)',
  'every value at every depth, with objects shared in any way, every dumper history',
  'tests compare with ==, which does not see identity; sharing patterns are unbounded',
  DD+':Dumper.dump', DD+':_iteratordump', DD+':_dataclassdump', DD+':_attrdump', DD+':_namedtupledump')
p('Load returns new objects',
  'Looking at object identity changes nothing else, and: every container or instance in what load returns is new, or one of the data, or a default object shared by all instances of a class. If no type met is Any and classes make container defaults with factories, all of them are new and none is at two places of the result; so changing the result in place changes neither the data, nor another part of the result, nor the result of another load, even of the same data. Any returns the object itself.',
  'every data with objects shared in any way, every type, every loader history',
  'tests compare with ==, which does not see identity; sharing patterns are unbounded',
  DL+':Loader.load', DL+':_iterload', DL+':_dictload', DL+':_objloader', DL+':_anyload', DL+':_basicload', DL+':_literalload')
p('Load does not modify the data',
  'Load writes only to objects it has created itself, whether it returns or raises: the data given to it (dictionaries that are mangled, Namespaces treated as dictionaries, partially loaded union alternatives, ...) and the default objects of the classes are never modified.',
  'every data, every type, every loader history, success and failure',
  'a test sees the data it passes; an in-place modification may hide in a path (renaming, failed alternative, failed element) it does not take',
  DL+':_mangle_names', DL+':_dictequivalence', DL+':_objloader', DL+':_unionload', DL+':_iterload')
p('Dump handlers of the user are used inside containers and objects',
  'With any list of dump handlers (whose conditions look at the type only), a container or object that has its default handler is dumped by dumping its parts with whatever handler they have: every element of a list, tuple, set or frozenset in order, every key and value of a dictionary, the value of an enum member, every attribute of a dataclass (with its annotation), attrs class or NamedTuple; a list raises what its first undumpable element raises. Exception: a list annotated with a basic element type is copied as long as the first handler is the default one.',
  'every handler list, every value, every dumper history',
  'handler lists and nesting are unbounded; tests install one handler',
  DD+':Dumper.dump', DD+':_iteratordump', DD+':_dataclassdump', DD+':_attrdump', DD+':_namedtupledump')
p('Generators are loaded like lists',
  'A generator (or other one-shot iterator) given to load is treated like the list of the elements it produces: same result, or same exception but for mentioning the generator. An exception raised by the generator itself is never swallowed: it surfaces as a TypedloadTypeError. After a success all the elements have been taken, after a failure those up to and including the offending one, whose index is in the trace.',
  'every sequence of elements, every place where the generator fails, every element type, every loader history',
  'tests/test_dataloader.py:186-240 loads one generator of three elements; lengths, failing positions and types are unbounded',
  DL+':_iterload', DL+':_unionload', DL+':_tupleload', 'tests/test_dataloader.py:TestFastIterableLoad')
p('The result is the data, converted place by place',
  'What load(v, t) returns is v converted place by place as the annotation says. Elements of a list come from the elements of the data at the same positions, none is dropped, invented or moved; the elements of a set are the converted elements without repetitions; the entries of a Dict are the converted entries, later ones winning; each attribute of an object is the value under its key, converted to its annotation, or its declared default if and only if the data has no such key; at a leaf the value is the datum itself (same type, or isinstance in containers of a basic type), what the constructor makes of it, the first enum member equal to it, the date it spells, the timedelta of that many seconds. Nothing else of the result depends on anything else, in particular not on the loader history.',
  'every value, type, class table, option and loader history; every interleaving of threads sharing the loader',
  'values and types nest without bound; a test compares one result, and a datum landing at another place or converted twice may not show there',
  DL+':Loader.load', DL+':_iterload', DL+':_tupleload', DL+':_dictload', DL+':_objloader', DL+':_typeddictload', DL+':_basicload', DL+':_enumload', DL+':_datetimeload', DL+':_unionload', DL+':_forwardrefload')
p('Data is accepted exactly when it has a conversion',
  'load(v, t) succeeds if and only if the annotation gives v a conversion place by place (in the sense of C73): data that is refused has none. When the annotation leaves no choice (at most one member of each union can take the data it meets), load(v, t) returns r if and only if r is that conversion. So what load accepts and what it returns are determined by the annotation and the data, not by handlers, caches or history.',
  'every value, type, class table, option and loader history for which the load terminates',
  'a test can show that one valid datum is accepted; that nothing convertible is refused is a statement about all data and types',
  DL+':Loader.load', DL+':_unionload', DL+':_objloader', DL+':_iterload', DL+':_dictload', DL+':_enumload', DL+':_forwardrefload')
p('What dump returns is the value place by place, exactly',
  'dump(v) returns r if and only if r is v written place by place: a value of a basic type as it is; a list, tuple, set or frozenset as the list of its dumped elements in order (a copy of its elements where the annotation of the field is a collection of a basic type); a dictionary as the dictionary of its dumped keys and values, if these keys are hashable; an object as the dictionary from the external names of its shown fields to their dumped values, where a field is hidden if it equals its default under hidedefault or is an attrs field with repr=False; an enum member as its dumped value; naive dates and times as lists of numbers or, with isodates, any of them as an ISO string; a timedelta as its seconds; a pattern as its source; a string-constructed object as its str. It raises if and only if there is no such r.',
  'every value, option, class table and dumper history; every interleaving of threads sharing the dumper',
  'values nest without bound; a test compares one result, and a value that lands at another place, is hidden, or is refused somewhere deep may not show there',
  DD+':Dumper.dump', DD+':_iteratordump', DD+':_namedtupledump', DD+':_dataclassdump', DD+':_attrdump', DD+':Dumper.__init__', DD+':_datetimedump')
p('What load returns is a well-formed value',
  'Whatever load returns, at any depth, is a value that can exist in Python: an instance has exactly the fields of its class in their order, the elements of a set and the keys of a dictionary are hashable and pairwise different, dates and times are in the range of their constructors, an enum member is one of its enum. This holds even where load picks wrong handlers or handlers of the user are called, as long as the data, the defaults, and what the users handlers and constructors return is well formed. So what load returns can be given to any dumper.',
  'every well-formed value, type, class table, handler list, option and loader history; every interleaving of threads sharing the loader',
  'the values nest without bound; a missing attribute or a duplicate set element deep inside a result surfaces only when that place is used',
  DL+':Loader.load', DL+':_iterload', DL+':_tupleload', DL+':_dictload', DL+':_objloader', DL+':_typeddictload', DL+':_datetimeload', DL+':_enumload')
p('What was loaded can be dumped',
  'What load makes of plain data (or of any data that can be dumped) can be dumped again: dump(load(v, t)) does not raise, and is plain data: json.dumps(dump(load(json.loads(s), t))) works. Conditions: the dumper knows the basic and string-constructed types of the loader; defaults, enum values and what constructors add can be dumped; isodates is set if the ISO strings have timezones; and the keys of Dict types are of types dumped as something hashable (not tuples, and dates only with isodates).',
  'every plain value, type, class table, option, loader history and dumper history',
  'types and values nest without bound; a test dumps one loaded value, but a deep tuple key, date key or bytes pattern makes dump raise',
  DL+':Loader.load', DD+':Dumper.dump', DL+':_dictload', DD+':Dumper.__init__', DD+':_datetimedump')
p('What was loaded, written and loaded again is the same value',
  'load(dump(load(v, t)), t) = load(v, t): when plain data v loads into t as r, and r is dumped as d, then loading d into t returns r again, not just an equal value, and whatever else the loader and dumper did before. Conditions: fields left out by hidedefault have exactly their default; dates, intervals, string-constructed objects and Enum members are restored from what they are written as; different keys of a dictionary are written differently; no member of a union is written as a value of another, basic member; constructors only store their arguments; the annotations are unambiguous for the written data',
  'every plain value, type, class table, option, loader history and dumper history',
  'types and values nest without bound; a test makes one round trip of one value, but whether the written form is read back depends on every place inside',
  DL+':Loader.load', DD+':Dumper.dump', DL+':_unionload', DL+':_objloader', DD+':_dataclassdump', DD+':_attrdump', DD+':_namedtupledump')
p('Dumps do not depend on the string hashes of the process',
  'dump(v) returns the same data in every process, whatever the seed of string hashes, except for the order of the keys of dictionaries (dataclasses are written in the order of a set): the same lists, the same keys, the same values under them; and a value that can be dumped in one process can be dumped in every other one. Condition: no dataclass has two fields with the same external name; otherwise the value of one of them is lost, and which one depends on the process.',
  'every value, option, class table, dumper history and pair of processes running the same program (any two iteration orders of sets of strings)',
  'tests run in one process; a result that changes with PYTHONHASHSEED shows only in some runs, and for n fields there are n! orders',
  DD+':_dataclassdump', DD+':Dumper.dump')
p('Loading does not depend on the string hashes of the process',
  'load(v, t) has the same outcome in every process, whatever the seed of string hashes: data accepted in one process is not refused in another one, and where the annotations leave no choice for the data the result is the same value.',
  'every value, type, class table, option, and pair of processes running the same program (any two choices of set.pop on the discriminators of unions)',
  'tests run in one process; a result that changes with PYTHONHASHSEED shows only in some runs',
  DL+':_unionload', DL+':Loader.load')
p("The order of the members of a union does not decide what is accepted",
  "Writing the members of unions in another order (or repeating some), in the type given to load and in the annotations of any class, does not change which data is accepted, and does not change the result where at most one member can take the data.",
  "every value, type and class table, every reordering at any depth",
  "Needs all values, all class tables and all permutations of all unions in them, including recursive classes.",
  "typedload/dataloader.py:_unionload")
p("Widening annotations keeps old data loading",
  "When unions get more members (that are not basic types), Literals more values, or a type that is not basic becomes a member of a union, in the type given to load and in the annotations of any class, data that was accepted before is still accepted, and becomes the same value where at most one member of each new union can take it.",
  "every value, type and class table, every widening at any depth",
  "Needs all values, all class tables and all additions to all unions in them, including recursive classes; tests try one old and one new version.",
  "typedload/dataloader.py:_unionload", "typedload/dataloader.py:_literalload")

p("A load handler only affects the types it accepts",
  "Inserting a handler anywhere in the list of a loader, or removing one, changes nothing on a type t if the condition of the handler accepts neither t nor any type that can be met while loading into t (type arguments, field types, annotations of Enums, the meaning of forward references, what the users handlers ask for): load gives the same result or exception for every value, and leaves the loader in the same state.",
  "every handler list, inserted or removed handler, place in the list, value, type, class table, option and loader history",
  "Needs all handler lists, all conditions and all types reachable from a type, including recursive classes; a test shows that one handler does not disturb one other type.",
  DL+':Loader.index', DL+':Loader.load')
p("A dump handler only affects the values it accepts",
  "Inserting a handler in the list of a dumper changes nothing on a value v if the condition of the handler accepts neither v nor any value met while dumping v: dump gives the same result or exception, and leaves the dumper in the same state.",
  "every handler list, inserted handler, place in the list, value, class table, option and dumper history",
  "Needs all handler lists, all conditions and all values; the place of the handler matters through a shortcut that looks at the head of the list.",
  DD+':Dumper.index', DD+':Dumper.dump', DD+':_iteratordump')

p('Options that name types only affect those types',
  'Adding to or removing from loader.strconstructed or loader.basictypes, or setting another mangle_key, changes nothing for a type that does not involve the difference: if no class added or removed can be met while loading into the type (and, for the mangle key, no field met has metadata under the one key or the other), every load into it returns the same value or raises the same exception, and leaves the loader in the same state.',
  'all worlds, configurations (with user handlers), reachable states, types, values; all other sets of basic or string constructed types and mangle keys that agree on the types met',
  'the options are read in many places (dispatch, the pass-through of elements, keys and values, the order of union members, the names of fields) and through caches; a test sees a few types and one history',
  'typedload/dataloader.py:Loader.__init__','typedload/dataloader.py:Loader.index','typedload/dataloader.py:_iterload','typedload/dataloader.py:_dictload','typedload/dataloader.py:_tupleload','typedload/dataloader.py:_unionload','typedload/dataloader.py:_dataclassload','typedload/dataloader.py:_attrload')

if __name__=='__main__':
    out=os.path.join(os.path.dirname(os.path.abspath(__file__)),'..','properties.jsonl')
    with open(out,'w') as f:
        for q in P: f.write(json.dumps(q)+'\n')
    print(len(P))
