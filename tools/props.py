"""Generates /verif/properties.jsonl (the list of claims)."""
import json, os
P = []
def p(id, title, statement, quantifier, why, anchors):
    P.append(dict(id=id, title=title, statement=statement, quantifier=quantifier, why_tests_cant=why, anchors=anchors))

PTR='jschon/jsonpointer.py'; JS='jschon/json.py'; PA='jschon/jsonpatch.py'; SC='jschon/jsonschema.py'
AP='jschon/vocabulary/applicator.py'; VA='jschon/vocabulary/validation.py'; CO='jschon/vocabulary/core.py'
CA='jschon/catalog/__init__.py'; OU='jschon/output.py'; LE='jschon/vocabulary/legacy.py'; VO='jschon/vocabulary/__init__.py'
FO='jschon/vocabulary/format.py'; AN='jschon/vocabulary/annotation.py'
JS='jschon/json.py'

p('C01','JSON Pointer text round-trip','For every JSONPointer p, JSONPointer(str(p)) succeeds and equals p; consequently two pointers with the same text are equal.','every sequence of keys (arbitrary strings, including "~", "/", "~0", "~1", "" and non-ASCII text)','keys are arbitrary strings of unbounded length; escaping bugs show only on particular interleavings of "~", "0", "1" and "/"',[f'{PTR}:JSONPointer.__new__',f'{PTR}:JSONPointer.__str__',f'{PTR}:JSONPointer.escape',f'{PTR}:JSONPointer.unescape'])
p('C02','JSON Pointer accepts exactly RFC 6901','JSONPointer(s) succeeds iff s is in the RFC 6901 grammar, otherwise it raises JSONPointerMalformedError; on success str(JSONPointer(s)) == s.','every string s','the set of strings is infinite and the regex must agree with the grammar on all of them',[f'{PTR}:JSON_POINTER_RE',f'{PTR}:JSONPointer.__new__'])
p('C03','Key escaping is lossless','unescape(escape(k)) == k for every key k; escape(k) contains no "/" and every "~" in it is followed by "0" or "1"; escape is injective.','every key string','infinite domain of strings',[f'{PTR}:JSONPointer.escape',f'{PTR}:JSONPointer.unescape'])
p('C04','URI fragment round-trip','JSONPointer.parse_uri_fragment(p.uri_fragment()) == p for every pointer p, and p.uri_fragment() uses only characters that RFC 3986 allows in a fragment.','every pointer, over all Unicode scalar values','the percent-encoding goes through UTF-8 bytes: 1.1 million code points in arbitrary sequences',[f'{PTR}:JSONPointer.parse_uri_fragment',f'{PTR}:JSONPointer.uri_fragment'])
p('C05','Pointer composition and slicing','JSONPointer(a, b, ...) concatenates its arguments; (p / q) / r == p / (q / r); p / k appends one unescaped key; p[:i] / p[i:] == p; len(p / q) == len(p) + len(q).','every pointer, every argument list, every index','laws quantify over all sequences',[f'{PTR}:JSONPointer.__new__',f'{PTR}:JSONPointer.__truediv__',f'{PTR}:JSONPointer.__getitem__',f'{PTR}:JSONPointer.__len__'])
p('C06','Pointer order is the prefix order','p <= q iff q == p / r for some r; <= is a partial order; p < q iff p <= q and p != q; p == q implies equal hashes.','every pair and triple of pointers','order axioms quantify over all pairs and triples',[f'{PTR}:JSONPointer.__le__',f'{PTR}:JSONPointer.__lt__',f'{PTR}:JSONPointer.__eq__',f'{PTR}:JSONPointer.__hash__'])
p('C07','Pointer evaluation on plain Python documents','p.evaluate(doc) returns the value that RFC 6901 designates (object member by exact key; array item by canonical decimal index) and otherwise raises JSONPointerReferenceError, never anything else; (p / q).evaluate(doc) == q.evaluate(p.evaluate(doc)).','every pointer and every JSON-compatible document','unbounded documents and pointers; includes all failing pointers',[f'{PTR}:JSONPointer.evaluate'])
p('C08','Pointer evaluation on JSON instances agrees with plain evaluation','For every JSON document d and pointer p, p.evaluate(JSON(d)) designates the same value as p.evaluate(d) and fails with JSONPointerReferenceError exactly when the latter does.','every pointer and every JSON document','unbounded pairs of documents and pointers, including every malformed array index',[f'{PTR}:JSONPointer.evaluate'])
p('C09','A node is found at its own path','For every node n reachable in a JSON document with root r, after any history of edits with in-range indices, n.path.evaluate(r) is n.','every document, every edit history, every node','histories and documents are unbounded; depends on the path cache being invalidated everywhere it must',[f'{JS}:JSON.path',f'{JS}:JSON._invalidate_path',f'{PTR}:JSONPointer.evaluate'])
p('C10','Relative JSON Pointer text round-trip','RelativeJSONPointer(s) succeeds iff s is in the Relative JSON Pointer grammar (with index manipulation), and then str(RelativeJSONPointer(s)) == s; for every p built from non-negative up, integer over and a pointer or "#", RelativeJSONPointer(str(p)) == p.','every string; every (up, over, ref) triple','infinite domain; the named-group regex could split one text in two ways',[f'{PTR}:RelativeJSONPointer.__new__',f'{PTR}:RelativeJSONPointer.__str__',f'{PTR}:RELATIVE_JSON_POINTER_RE'])
p('C11','Relative JSON Pointer evaluation','From a node at location loc, evaluation goes up the given number of levels, shifts the array index, and then returns either the index/key of the reached node or the target of the remaining pointer; every impossible step raises RelativeJSONPointerReferenceError.','every document, node and relative pointer','unbounded documents and pointers',[f'{PTR}:RelativeJSONPointer.evaluate'])
p('C12','JSON construction preserves the value','JSON(v).value == v with the same types and member order; type, len, keys and bool of the instance are those of v; each child is itself the JSON of the corresponding child of v.','every JSON-compatible value','unbounded nesting',[f'{JS}:JSON.__init__',f'{JS}:JSON.value',f'{JS}:JSON.__len__',f'{JS}:JSON.__bool__'])
p('C13','Positions stay correct under any edit history','After any sequence of item assignments, deletions, insertions, appends, pops, and add/remove/replace calls on any nodes of the document, every child c of a node n has c.parent is n, c.key equal to its current key (or str of its current index), and c.path equal to its current location.','every initial document and every finite sequence of edits on any of its nodes, interleaved with any reads of path and value','histories are unbounded and the cached paths go stale only for particular interleavings of reads and edits',[f'{JS}:JSON.__setitem__',f'{JS}:JSON.__delitem__',f'{JS}:JSON.insert',f'{JS}:JSON._invalidate_path',f'{JS}:JSON.add',f'{JS}:JSON.remove',f'{JS}:JSON.replace'])
p('C14','The cached value is never stale','After any history of edits and reads, n.value equals the current content of n, for every node n.','every initial document, every finite sequence of edits and reads, every node','same: unbounded histories, cache interleavings',[f'{JS}:JSON.value',f'{JS}:JSON._invalidate_value'])
p('C15','Edits act like list and dict edits','n[k] = v, del n[k] and n.insert(i, v) change the value of the document exactly as the same operation on the nested Python list or dict at the location of n, and leave every other location unchanged.','every document, node, key or in-range index and new value','unbounded documents; frame condition over all other locations',[f'{JS}:JSON.__setitem__',f'{JS}:JSON.__delitem__',f'{JS}:JSON.insert'])
p('C16','Assignment copies','Assigning a JSON instance into a document stores an independent copy: no later edit of the source is visible in the document, nor the reverse.','every pair of documents and every later edit history','aliasing only shows under particular later histories',[f'{JS}:JSON.__setitem__',f'{JS}:JSON.insert',f'{JS}:JSON.add',f'{JS}:JSON.replace'])
p('C17','In-place add/remove/replace agree with JSON Patch','For every document and pointer on which the jsonpatch function succeeds, doc.add/remove/replace changes doc.value to the result of the jsonpatch function of the same name; and when the in-place method fails the document is unchanged.','every document, pointer and value','unbounded',[f'{JS}:JSON.add',f'{JS}:JSON.remove',f'{JS}:JSON.replace',f'{PA}:add',f'{PA}:remove',f'{PA}:replace'])
p('C18','JSON equality is an equivalence relation','== on JSON instances is reflexive, symmetric and transitive, and != is its negation.','every triple of JSON values','quantifies over all triples',[f'{JS}:JSON.__eq__'])
p('C19','JSON equality is JSON data-model equality','JSON(a) == JSON(b) iff a and b are equal in the JSON data model: same type (booleans are not numbers), numbers mathematically equal, arrays item by item, objects as unordered maps.','every pair of JSON values','infinite domain; Python True == 1 pitfalls at any depth',[f'{JS}:JSON.__eq__'])
p('C20','JSON Patch add','add sets an object member or inserts an array item (index, or "-" for the end) as RFC 6902 section 4.1 prescribes, touching nothing else; the root pointer replaces the document.','every document, pointer and value','unbounded',[f'{PA}:add',f'{PA}:Node'])
p('C21','JSON Patch remove and replace','remove and replace act on an existing location only, as RFC 6902 sections 4.2 and 4.3 prescribe, touch nothing else, and raise JSONPatchError for a missing member.','every document, pointer and value','unbounded',[f'{PA}:remove',f'{PA}:replace',f'{PA}:Node'])
p('C22','JSON Patch move, copy and test','move is remove at from then add at path of the removed value; copy is add of the value at from; test returns the document unchanged iff the target equals the value in the JSON data model, and raises otherwise; move with from a proper prefix of path is rejected.','every document and pair of pointers','unbounded',[f'{PA}:move',f'{PA}:copy',f'{PA}:test'])
p('C23','JSONPatch.evaluate does not modify its inputs','patch.evaluate(doc) changes neither doc nor any value held in the patch, and the result shares no mutable object with either, whether it succeeds or raises.','every document and every patch, including failing ones','needs every path through every operation, and every failure point in the sequence',[f'{PA}:JSONPatch.evaluate',f'{PA}:add',f'{PA}:JSONPatchOperation.apply'])
p('C24','A patch is the sequence of its operations','Evaluating ops1 + ops2 equals evaluating ops2 on the result of ops1; the first failing operation makes evaluation fail; evaluation is repeatable (a second evaluation of the same patch gives the same result).','every document and every pair of operation lists','unbounded lists',[f'{PA}:JSONPatch.evaluate',f'{PA}:JSONPatchOperation.apply'])
p('C25','A failing single operation leaves the document unchanged','When add, remove, replace, move, copy or test raises, the document passed to it is unchanged.','every document, operation and argument','every failure point of every operation',[f'{PA}:add',f'{PA}:remove',f'{PA}:replace',f'{PA}:move',f'{PA}:copy',f'{PA}:test'])
p('C26','Patch failures are reported as JSONPatchError','An operation whose target location is invalid for the document raises JSONPatchError, and no other exception.','every document, operation and pointer','infinite; includes string and scalar parents and unusual index spellings',[f'{PA}:Node',f'{PA}:add',f'{PA}:test'])
p('C27','Adding then removing restores the document','When path does not exist as an object member or is an array position, remove(add(doc, path, v), path) gives back doc; replace(doc, path, value at path) gives back doc.','every document, pointer and value','unbounded',[f'{PA}:add',f'{PA}:remove',f'{PA}:replace'])
p('C28','Patch operations survive conversion to dicts','JSONPatchOperation(**op.asdict()) == op and JSONPatch(*patch.aslist()) == patch for every patch whose operations carry only the members RFC 6902 defines for them.','every operation and patch','unbounded',[f'{PA}:JSONPatchOperation.asdict',f'{PA}:JSONPatch.aslist',f'{PA}:JSONPatchOperation.__eq__'])
p('C29','Keywords are evaluated after the keywords they depend on','For every schema object, in whatever order its keywords are written, each keyword is constructed and evaluated exactly once and after every keyword of the same schema that it depends on; the ordering step terminates for each shipped dialect.','every set of keywords in every order, for each dialect (and every acyclic custom vocabulary)','factorially many orders of an unbounded number of keywords',[f'{SC}:JSONSchema._resolve_dependencies',f'{VO}:Keyword.depends_on','jschon/catalog/_2020_12.py','jschon/catalog/_2019_09.py'])
p('C30','Validation verdict equals the JSON Schema semantics','schema.evaluate(JSON(v)).valid is true iff v is valid against the schema per the JSON Schema 2020-12 semantics of its keywords (each keyword given by its declarative meaning), for schemas with references, whenever evaluation terminates.','every schema over the modelled keywords, every instance, every reference graph','schemas nest without bound and interact through annotations',[f'{SC}:JSONSchema.evaluate',AP,VA,f'{CO}:RefKeyword'])
p('C31','Logical applicators','allOf / anyOf / oneOf / not / if-then-else give the conjunction, disjunction, exactly-one, negation and conditional of their subschemas verdicts.','every list of subschemas and every instance','arbitrary subschemas',[f'{AP}:AllOfKeyword',f'{AP}:AnyOfKeyword',f'{AP}:OneOfKeyword',f'{AP}:NotKeyword',f'{AP}:IfKeyword',f'{AP}:ThenKeyword',f'{AP}:ElseKeyword'])
p('C32','Object applicators','properties, patternProperties, additionalProperties, propertyNames and dependentSchemas constrain exactly the members that the specification names, and an object is valid against them iff each of those members is.','every object instance and every choice of subschemas','arbitrary names, patterns and subschemas',[f'{AP}:PropertiesKeyword',f'{AP}:PatternPropertiesKeyword',f'{AP}:AdditionalPropertiesKeyword',f'{AP}:PropertyNamesKeyword',f'{AP}:DependentSchemasKeyword'])
p('C33','Array applicators and contains counting','prefixItems and items partition the array at the length of prefixItems; with contains, the number of matching items must lie between minContains (default 1) and maxContains (default unbounded).','every array instance and every choice of subschemas and bounds','arbitrary arrays; the verdict of contains is revised afterwards by minContains',[f'{AP}:PrefixItemsKeyword',f'{AP}:ItemsKeyword',f'{AP}:ContainsKeyword',f'{VA}:MinContainsKeyword',f'{VA}:MaxContainsKeyword'])
p('C34','unevaluatedProperties and unevaluatedItems','They apply to exactly the members and items that no adjacent keyword, and no successfully validated in-place subschema, has evaluated.','every schema and instance','the set of evaluated locations flows through arbitrarily nested in-place subschemas',[f'{AP}:UnevaluatedPropertiesKeyword',f'{AP}:UnevaluatedItemsKeyword',f'{SC}:Result.collect_annotations'])
p('C35','Assertion keywords','type, enum, const, maximum, exclusiveMaximum, minimum, exclusiveMinimum, maxLength, minLength, pattern, maxItems, minItems, uniqueItems, maxProperties, minProperties, required and dependentRequired decide exactly their mathematical definition.','every keyword value and instance','infinite numeric and string domains',[VA])
p('C36','Keyword order in a schema object is irrelevant','Permuting the members of any schema object does not change the validity of any instance.','every schema, permutation and instance','factorially many permutations',[f'{SC}:JSONSchema.__init__',f'{SC}:JSONSchema._resolve_dependencies',f'{SC}:JSONSchema.evaluate'])
p('C37','Unknown and annotation keywords never affect validity','Adding or removing an unrecognised keyword, an annotation keyword, $comment or $defs does not change the verdict; format affects it only when its attribute was enabled in the catalog when the schema was created.','every schema, keyword value and instance','arbitrary keyword values and positions',[f'{VO}:_UnknownKeyword',f'{AN}:_AnnotationKeyword',f'{FO}:FormatKeyword'])
p('C38','Keywords ignore instances of other types','A keyword that constrains one JSON type accepts every instance of another type.','every keyword and instance of another type','all instances',[f'{SC}:JSONSchema.evaluate',f'{VO}:Keyword.instance_types'])
p('C39','Boolean and empty schemas','true and {} accept every instance and false rejects every instance.','every instance','all instances',[f'{SC}:JSONSchema.evaluate'])
p('C40','Evaluation terminates and is deterministic','Evaluating a schema without reference keywords terminates on every instance, and evaluation of any schema, if it terminates, has a single outcome.','every schema and instance','termination needs a measure over unbounded nesting',[f'{SC}:JSONSchema.evaluate'])
p('C41','multipleOf','A number n is valid against multipleOf m iff n is an integer multiple of m.','every pair of numbers','infinite numeric domain; fails only beyond the decimal precision',[f'{VA}:MultipleOfKeyword'])
p('C42','uniqueItems','An array is valid against uniqueItems: true iff no two of its items are equal in the JSON data model.','every array','arbitrary length and nesting',[f'{VA}:UniqueItemsKeyword'])
p('C43','An invalid result carries an error','Whenever result.valid is false, result.collect_errors() yields at least one error, and the basic output lists at least one error.','every schema and instance','errors must surface through every nesting of applicators and every resetting of results',[f'{SC}:Result.collect_errors',f'{SC}:Result.fail',f'{OU}:basic'])
p('C44','Output formats agree with the verdict','The "valid" member of the flag, basic, detailed and verbose outputs equals result.valid, and every unit listed by basic is an error unit if invalid and an annotation unit if valid.','every result tree','unbounded trees',[f'{OU}:flag',f'{OU}:basic',f'{OU}:detailed',f'{OU}:verbose'])
p('C45','Annotations of failed subschemas are dropped','collect_annotations never yields an annotation produced underneath a subschema that the instance failed to match.','every schema and instance','arbitrary nesting',[f'{SC}:Result.collect_annotations',f'{AP}:NotKeyword'])
p('C46','Result locations','Every node in a result tree has an instance location that exists in the instance document (or names one of its members), and its keyword location extends that of its parent by its own key.','every schema and instance','unbounded trees',[f'{SC}:Result.__init__',f'{SC}:Result.__call__'])
p('C47','Source selection is longest-prefix and order-independent','load_json uses the source whose registered base URI is the longest prefix of the URI and passes it the remainder; the choice does not depend on registration order; re-registering a base URI replaces its source.','every set and order of registered sources and every URI','all registration orders',[f'{CA}:Catalog.add_uri_source',f'{CA}:Catalog.load_json'])
p('C48','Schema caches are isolated','Adding, removing or popping a schema in one cache never changes a lookup in another cache; get_schema returns the schema most recently added under that URI and cache and not deleted since.','every sequence of catalog operations','unbounded histories',[f'{CA}:Catalog.add_schema',f'{CA}:Catalog.del_schema',f'{CA}:Catalog.get_schema'])
p('C49','Cache scopes clean up','Leaving a catalog.cache() block, normally or by exception, removes every schema cached in it and restores all other caches; an identifier already in use is refused without effect.','every body of the block, including nested blocks and exceptions','all bodies and failure points',[f'{CA}:Catalog.cache'])
p('C50','A failed load is not remembered as a success','If get_schema, get_metaschema or create_metaschema raises for a URI, a later call for the same URI with unchanged sources raises again rather than returning an unusable schema.','every history of catalog calls','depends on state left by an earlier failure',[f'{CA}:Catalog.get_schema',f'{CA}:Catalog.create_metaschema',f'{CA}:Catalog.get_metaschema',f'{SC}:JSONSchema.__init__'])
p('C51','Canonical URIs resolve','For every (sub)schema s of a constructed document, get_schema(s.canonical_uri) is s.','every schema document and every subschema in it','unbounded documents with keys needing two levels of escaping',[f'{SC}:JSONSchema.canonical_uri',f'{CA}:Catalog.get_schema'])
p('C52','Dynamic references bind to the outermost scope','A dynamic $dynamicRef evaluates the schema with the matching $dynamicAnchor in the outermost schema resource of the dynamic scope, and otherwise behaves like $ref; $recursiveRef likewise with $recursiveAnchor.','every dynamic scope','dynamic scopes are unbounded',[f'{CO}:DynamicRefKeyword.evaluate',f'{LE}:RecursiveRefKeyword_2019_09.evaluate'])
p('C53','2019-09 array keywords','items (schema or array form), additionalItems and unevaluatedItems of 2019-09 decide what the 2019-09 specification says.','every schema and array','arbitrary arrays and subschemas',[f'{LE}:ItemsKeyword_2019_09',f'{LE}:AdditionalItemsKeyword_2019_09',f'{LE}:UnevaluatedItemsKeyword_2019_09'])
p('C54','Every JSON object is a constructible schema object as far as unknown keywords go','A schema object containing any member names that no vocabulary defines constructs without error, and those members are kept as annotations.','every member name','all strings, including the empty one',[f'{VO}:Metaschema.get_kwclass'])
p('C55','Constructing a schema preserves the document','JSONSchema(doc) creates a new root instance whose value equals doc up to the order of object members, in the requested cache, and a schema object gets a URI.','every document, environment and earlier history','unbounded nesting and histories; keywords are re-ordered by their dependencies',[f'{SC}:JSONSchema.__init__',f'{SC}:JSONSchema._bootstrap',f'{VO}:Keyword.__init__'])
p('C56','References are resolved at construction','When JSONSchema(doc) returns, every $ref, $dynamicRef and $recursiveRef of every schema in the document holds a reference to a schema.','every document, including documents that load others recursively','reference graphs across documents are unbounded',[f'{SC}:JSONSchema._resolve_references',f'{CO}:RefKeyword.resolve',f'{CO}:DynamicRefKeyword.resolve',f'{LE}:RecursiveRefKeyword_2019_09.resolve'])
p('C57','Construction leaves existing instances alone','Constructing a schema or calling get_schema, successfully or not, changes the value, position, URIs, cache, keywords and resolved references of no instance that existed before.','every history, document and failure point','frame condition over all other instances and all failure points',[f'{SC}:JSONSchema.__init__',f'{CA}:Catalog.get_schema'])
p('C58','get_schema returns schemas only','Whatever get_schema returns is a JSONSchema, never a plain JSON node reached by a pointer fragment.','every history of constructions and every URI','unbounded histories and fragments',[f'{CA}:Catalog.get_schema'])
p('C59','Well-formed schemas construct','JSONSchema(doc) returns for every document whose metaschema, identifiers and keyword values are of the form that the code expects and whose references, if any, refer to its own subschemas (by JSON pointer, anchor, or URI of an embedded resource), whatever was constructed before.','every document, nesting depth and earlier history','unbounded documents; any of the constructors could raise',[f'{SC}:JSONSchema.__init__',f'{SC}:JSONSchema._bootstrap',f'{SC}:JSONSchema._resolve_dependencies',f'{VO}:Keyword.__init__'])
p('C60','Nested outputs list what has the verdict','The innermost units of the detailed output are about exactly the results that are reached from the root through results with its verdict and have no child with that verdict, in order, with their locations and messages; something is listed whenever the instance is invalid. The hierarchical output has one unit per schema result, nested likewise, with the messages of its keywords.','every result tree','unbounded trees, collapsing of single children',['jschon/output.py:detailed','jschon/output.py:hierarchical'])
p('C61','Schemas constructed later have no influence','Evaluating a schema gives the same result tree before and after any other schemas are constructed or loaded, successfully or not.','every schema, instance and later history of constructions and loads','unbounded histories, shared caches and catalog',[f'{SC}:JSONSchema.evaluate',f'{SC}:JSONSchema.__init__',f'{CO}:DynamicRefKeyword.evaluate',f'{CA}:Catalog.get_schema'])
p('C62','The verdict on a document as written','JSONSchema(doc).evaluate(instance).valid is what the specification (2019-09 or 2020-12, as given by the metaschema) says about the JSON document doc, with embedded resources, anchors, references and dynamic or recursive references resolved within it: construction, keyword ordering and evaluation together.','every document whose references stay within it, every instance, every earlier and later history','end-to-end over unbounded recursive documents',[f'{SC}:JSONSchema.__init__',f'{SC}:JSONSchema.evaluate',f'{VO}:Keyword.__init__',f'{CO}:RefKeyword.resolve'])
p('C63','Evaluation of a constructed document ends','Evaluation of a constructed document ends for every instance if no cycle of references applies schemas to one and the same instance; in particular recursive schemas that descend into the instance are fine.','every document and instance','termination',[f'{SC}:JSONSchema.evaluate',f'{CO}:RefKeyword.evaluate'])
p('C64','Annotation keywords and unknown keywords annotate','Every keyword that only annotates, and every unknown keyword, annotates each instance of its type with its value whatever the other keywords of the schema say, asserts nothing, and is collected if the instance is valid.','every schema, keyword and instance','any combination of keywords could discard or overwrite the annotation',[f'{VO}:Keyword.evaluate',f'{AN}:TitleKeyword',f'{SC}:Result.collect_annotations'])
p('C65','Inherited methods of arrays act like those of list',
  'On a JSON array, extend (also with another instance or with itself), +=, reverse and clear do to the document what they do to the nested Python list, changing nothing else, and extend and reverse keep keys and paths right; in, index and count find the items that are equal in the JSON data model. Extending what is not an array changes nothing.',
  'for all heaps produced by any history of calls, all instances in them, and all arguments that do not contain the receiver',
  'The methods come from MutableSequence and act through __setitem__, __delitem__ and insert, each of which copies and renumbers; only an invariant over all histories covers every combination.',
  [JS+':33',JS+':222-289'])
p('C66','Inherited methods of objects act like those of dict',
  'On a JSON object, update (also with another instance or with itself), pop, popitem, setdefault, get, in and items do to the document what they do to the nested dict and return the members; clear empties the object.',
  'for all heaps produced by any history of calls, all instances in them, all names, and all arguments that do not contain the receiver',
  'Which base class supplies a method depends on the method resolution order, and the effect on the rest of the document on the history of edits.',
  [JS+':33',JS+':222-289'])
p('C67','Comparison operators are a total order on numbers and on strings',
  'Between two JSON numbers, and between two JSON strings, <, <=, >, >= decide one strict total order, by exact value or by code points, that agrees with ==; a number is not comparable with a string, and null and objects are not comparable with anything (TypeError).',
  'for all JSON values',
  'The laws are universally quantified over pairs and triples of numbers (int and float mixed) and strings.',
  [JS+':291-325'])
p('C68','Vocabularies determine the keyword classes',
  'A metaschema gives its schemas, for each keyword, the class from the core vocabulary, or else from the last recognised vocabulary listed in $vocabulary that defines it (without $vocabulary: the last default vocabulary, or else the default core). It is refused exactly if the core vocabulary is not the only one listed of its form, or not listed with true, or a URI is malformed, or a required vocabulary was not created. The shipped vocabularies give the classes of 2019-09, 2020-12 and next, in whatever order they are listed.',
  'for all sequences of create_vocabulary calls, all $vocabulary objects and all defaults',
  'Orders of entries, overlapping vocabularies and repeated creations combine without bound.',
  [f'{VO}:Metaschema.__init__',f'{VO}:Metaschema._bootstrap',f'{VO}:Vocabulary.__init__',f'{CO}:VocabularyKeyword.__init__',f'{CA}:Catalog.create_vocabulary',f'{CA}:Catalog.get_vocabulary'])
p('C69','get_metaschema returns what was created',
  'get_metaschema(uri) returns the metaschema that was created for the URI, the same one every time, with the keyword classes of its vocabularies; a metaschema that could not be created, or is not valid, is never returned.',
  'for all documents, vocabularies and states of the cache',
  'A failure can occur at any point of construction, with the metaschema already in the cache.',
  [f'{CA}:Catalog.create_metaschema',f'{CA}:Catalog.get_metaschema',f'{VO}:Metaschema.__init__'])
p('C70','The URI of an embedded schema is its $id',
  'Whatever schemas were constructed and looked up before, and however often that failed: a schema inside a document has a URI if and only if it has $id, and then it is the text of $id if that is absolute, or else that text resolved against the base URI of the place where the schema is: the URI, without fragment, of the nearest schema above that has one.',
  'for all documents, histories of constructions and lookups, and libraries of URIs whose UUIDs have no fragment; URIs given for schemas have no fragment',
  'Nesting of relative $id and failures half way through a construction combine without bound.',
  [f'{SC}:JSONSchema.__init__',f'{SC}:JSONSchema.uri',f'{SC}:JSONSchema.base_uri',f'{CO}:IdKeyword.__init__'])
p('C71','The catalog knows exactly the names of schemas',
  'In every cache of the catalog, a URI is mapped to a schema of that cache that has this URI, or has it as its base URI with the text of its $anchor or $dynamicAnchor as fragment; and every such name of a schema is in the cache. So get_schema of such a name returns a schema with that name without any change, and returns the schema itself if no other schema of the cache has the same name.',
  'for all documents, histories of constructions and lookups, including failed ones, and libraries of URIs whose UUIDs have no fragment; URIs given for schemas have no fragment',
  'Registration happens in the middle of construction, before and after the URI of a schema is changed by $id, and stays after failures.',
  [f'{SC}:JSONSchema.uri',f'{CA}:Catalog.add_schema',f'{CA}:Catalog.del_schema',f'{CA}:Catalog.get_schema',f'{CO}:IdKeyword.__init__',f'{CO}:AnchorKeyword.__init__',f'{CO}:DynamicAnchorKeyword.__init__'])
p('C72','Documents that refer to each other',
  'When documents are constructed one after the other, each of them may refer to schemas of those before it by URI, by JSON pointer and by anchor, statically, dynamically and recursively: it constructs, evaluation says what the specification of its dialect says about the documents together, evaluation ends if no cycle of references applies schemas to one and the same instance, and the earlier documents keep giving the results that they gave before.',
  'for all sequences of documents of one dialect, 2019-09 or 2020-12, with distinct names, interspersed with any other constructions and lookups that leave these names alone, and all instances',
  'Names are registered and looked up across documents and caches, dynamic scopes cross documents, and both combine without bound.',
  [f'{SC}:JSONSchema.__init__',f'{SC}:JSONSchema.evaluate',f'{CA}:Catalog.get_schema',f'{CO}:RefKeyword.resolve',f'{CO}:DynamicRefKeyword.resolve',f'{CO}:DynamicRefKeyword.evaluate'])
p('C73','Documents that are loaded when they are referred to',
  'A document may refer to schemas of documents that the catalog can load from its sources, and those to each other, in whatever cycles: it constructs, with all documents loaded that are needed; get_schema returns the schema that a URI is for, from a document that is there or has to be loaded; evaluation of the constructed and of the obtained schemas says what the specification of the dialect says about the documents together, and ends if no cycle of references applies schemas to one and the same instance; and nothing that is constructed or loaded later changes the results of earlier documents.',
  'for all sets of loadable documents of one dialect, 2019-09 or 2020-12, with distinct names, all sequences of constructions and lookups, interspersed with any others that leave these names alone, and all instances',
  'References are resolved while other documents are loaded, whose references load further ones and lead back to documents that are not finished; the order is determined by the documents.',
  [f'{SC}:JSONSchema.__init__',f'{SC}:JSONSchema._resolve_references',f'{SC}:JSONSchema.evaluate',f'{CA}:Catalog.get_schema',f'{CA}:Catalog.load_json',f'{CO}:RefKeyword.resolve',f'{CO}:DynamicRefKeyword.resolve'])
p('C74','dumps writes JSON text of the content',
  'At all times, JSON.dumps() returns a JSON text by RFC 8259 that denotes exactly the content of the instance; it depends on nothing else, and instances with the same text have the same content. It is one line: a space after each comma and colon and no other, short escapes where there are any, \\u00xx in lower case for other control characters, and all other characters as they are.',
  'for all histories of instances and all contents whose floats are finite',
  'Strings with any characters, nesting and histories of changes are unbounded.',
  [f'{JS}:JSON.dumps','jschon/utils.py:json_dumps'])
p('C75','loads reads JSON text and nothing else',
  'JSON.loads(s) succeeds if and only if s is a JSON text by RFC 8259, and then makes a new document with the content that the text denotes, a repeated name having its last value; every other text, including NaN and Infinity, raises ValueError.',
  'for all texts',
  'The language of JSON texts is infinite and not regular.',
  [f'{JS}:JSON.loads','jschon/utils.py:json_loads','jschon/utils.py:_parse_invalid_const'])
p('C76','Reading and writing are inverse',
  'JSON.loads(j.dumps()) has the content of j, and JSON.loads(s).dumps() denotes the same as s.',
  'for all histories of instances, all contents whose floats are finite, and all texts without infinities and lone surrogates',
  'Contents, texts and histories are unbounded.',
  [f'{JS}:JSON.loads',f'{JS}:JSON.dumps','jschon/utils.py:json_loads','jschon/utils.py:json_dumps'])
p('C77','Formats are asserted exactly if enabled',
  'After any sequence of format_validator registrations, imports of the supplied validators and enable_formats calls on any catalogs: the format keyword of a schema asserts if and only if its format was enabled on the catalog of that schema by the time the schema was constructed; it then passes exactly the instances that are of no type the validator is for or that the validator accepts, where the validator is the one registered last; otherwise it only annotates. A format that is enabled and has no validator raises KeyError when the schema is constructed.',
  'for all sequences of registrations, imports and enable_formats calls, all catalogs, formats, validators and instances',
  'Registrations are global and enabling is by catalog; the sequences of both are unbounded and their order matters.',
  [f'{FO}:FormatKeyword.__init__',f'{FO}:FormatKeyword.evaluate',f'{FO}:format_validator',f'{CA}:Catalog.enable_formats',f'{CA}:Catalog.is_format_enabled','jschon/formats.py:validate_json_pointer'])
p('C78','Equal patches act equally on equal documents',
  'Two patches that have the same operations, up to equality of JSON values, give equal results on equal documents, or both raise the same exception; and equality of patches is an equivalence.',
  'for all patches and documents',
  'The number of operations, the documents and the ways in which equal values differ (1 and 1.0, order of members) are unbounded.',
  [f'{PA}:JSONPatch.evaluate',f'{PA}:JSONPatch.__eq__',f'{PA}:JSONPatchOperation.__eq__',f'{PA}:JSONPatchOperation.apply'])
p('C79','A patch is a list of operations',
  'Indexing, slicing, assignment, deletion and insertion act on a JSONPatch as on the list of its operations, with negative indices from the back and an argument that may be a dict describing an operation; an edit that raises leaves the patch as it was; and evaluating a patch is evaluating p[:i] and then p[i:].',
  'for all patches, indices, operations and documents',
  'Patches and indices are unbounded.',
  [f'{PA}:JSONPatch.__getitem__',f'{PA}:JSONPatch.__setitem__',f'{PA}:JSONPatch.__delitem__',f'{PA}:JSONPatch.insert',f'{PA}:JSONPatch.evaluate'])
p('C80','URIs by RFC 3986',
  'If the URI library follows RFC 3986 (normalizing the base first), then str(URI(t)) is t; URI(t).resolve(b) is the result of 5.2.2 with the dot segments removed as 5.2.4 says; an absolute URI in normal form is usable as $id, and so is a relative reference, which resolves against any absolute URI in normal form to an absolute URI in normal form; URI("#f").resolve(b) is b with the fragment f for such b; and the laws that the theorems about construction and documents assume of URIs hold.',
  'for all texts, components and base URIs',
  'Paths with dot segments, and references and bases in combination, are unbounded.',
  ['jschon/uri.py:URI.__init__','jschon/uri.py:URI.__str__','jschon/uri.py:URI.resolve','jschon/uri.py:URI.is_absolute','jschon/uri.py:URI.validate','jschon/uri.py:URI.copy'])
p('C81','Absolute keyword locations',
  'schema_node of every result of an evaluation of a constructed schema exists and is the node found by following the keys of the results above it from the schema, jumping at references; its absolute_uri is the URI of a schema resource with a JSON pointer fragment that leads from that resource to schema_node, and for a reference it is the URI of the referenced schema, provided that URIs differ and have no fragments.',
  'for all documents, instances, evaluations that end and results in them',
  'Depth of result trees, chains of references and nesting of resources are unbounded.',
  ['jschon/jsonschema.py:Result.absolute_uri','jschon/jsonschema.py:Result.schema_node','jschon/jsonschema.py:JSONSchema.canonical_uri','jschon/output.py:basic'])
p('C82','Roots of schemas',
  'For every schema in a document, parentschema is the nearest schema that contains it (none for the root), document_rootschema is the root of the document, and resource_rootschema is the nearest schema with $id, itself included, or else the root of the document; there is only one such schema. If values of $id are strings, base_uri is the URI of resource_rootschema without fragment, and if that URI has no fragment, canonical_uri is it with the JSON pointer fragment that leads from resource_rootschema to the schema.',
  'for all histories of constructing and looking up schemas, documents and schemas in them',
  'Nesting of schemas and of resources is unbounded, and the loops stop at schemas that are false in the sense of Python.',
  ['jschon/jsonschema.py:JSONSchema.parentschema','jschon/jsonschema.py:JSONSchema.resource_rootschema','jschon/jsonschema.py:JSONSchema.document_rootschema','jschon/jsonschema.py:JSONSchema.base_uri','jschon/jsonschema.py:JSONSchema.canonical_uri'])
p('C83','The verdict on any document',
  'The verdict on a value by any constructed document, alone, among several, or loaded by URI, is what the rules of the code say of the JSON value that was written: those of the specification, except that keywords of a schema that fails under not still count as evaluating members, items of 2020-12 evaluates all items once it applies to one, boolean items of 2019-09 evaluates nothing, additionalItems needs the array form of items to hold and not to be empty, a base URI that recurs in the dynamic scope counts where it is innermost, and a quotient of a multiple may have at most 28 digits before the point.',
  'for all documents, instances and evaluations that end, with no condition that the document keeps away from these points',
  'Documents, nesting, chains of references and dynamic scopes are unbounded, and the six points interact.',
  ['jschon/jsonschema.py:JSONSchema.evaluate','jschon/vocabulary/core.py:DynamicRefKeyword.evaluate','jschon/vocabulary/applicator.py:NotKeyword.evaluate','jschon/vocabulary/applicator.py:ItemsKeyword.evaluate','jschon/vocabulary/legacy.py:ItemsKeyword_2019_09.evaluate','jschon/vocabulary/legacy.py:AdditionalItemsKeyword_2019_09.evaluate','jschon/vocabulary/applicator.py:UnevaluatedPropertiesKeyword.evaluate','jschon/vocabulary/validation.py:MultipleOfKeyword.evaluate'])
p('C84','Equal documents judge equal values equally',
  'If two schema documents are equal as JSON (JSON(doc) == JSON(doc2): members in any order, 1 for 1.0) and so are two instances, then the second document constructs if the first one is well-formed, and both verdicts are the same; so for documents that refer to each other and for documents that are loaded. Equal numbers must be written as the same decimal number, which a float such as 1e23 and the integer equal to it are not, and format validators must not tell equal values apart.',
  'for all well-formed documents of one dialect, instances and evaluations that end',
  'Documents and values are unbounded, and so are the ways in which equal values can be written.',
  ['jschon/json.py:JSON.__eq__','jschon/jsonschema.py:JSONSchema.evaluate','jschon/jsonschema.py:JSONSchema._bootstrap','jschon/vocabulary/validation.py:MultipleOfKeyword.evaluate','jschon/vocabulary/validation.py:EnumKeyword.evaluate','jschon/vocabulary/validation.py:ConstKeyword.evaluate'])
p('C85','What keywords annotate and report',
  'After schema.evaluate(instance), each keyword of the schema object that applies to the type of the instance has a result with a determined annotation and error, or none when the code discards it: properties and patternProperties annotate with the names they deal with, additionalProperties and unevaluatedProperties with the names beyond and report those that fail, propertyNames reports the names that fail, prefixItems annotates with true or the last position, items with true and reports the positions that fail, contains annotates with the positions that match and has its error withdrawn when minContains holds, format and the annotation keywords annotate with their value, assertions report a message exactly when they fail, and so on for all keywords of 2019-09 and 2020-12. Keywords for other types have no result, and schema results have no annotation, and an error only for the schema false.',
  'for all stores of schemas of one dialect, schemas, instances and evaluations that end',
  'Instances and schemas are unbounded, and so are the combinations of keywords that look at each other.',
  ['jschon/jsonschema.py:JSONSchema.evaluate','jschon/jsonschema.py:Result.__call__','jschon/jsonschema.py:Result.fail','jschon/jsonschema.py:Result.annotate','jschon/vocabulary/applicator.py','jschon/vocabulary/validation.py:MinContainsKeyword.evaluate','jschon/vocabulary/annotation.py','jschon/vocabulary/format.py:FormatKeyword.evaluate','jschon/vocabulary/legacy.py'])
p('C86','Sources stay within their base',
  'What load_json reads from a LocalSource is a file below its directory: the one that the names in the remainder of the URI lead to, with the suffix at the last of them. What it fetches from a RemoteSource is its base URL followed by the remainder of the URI and the suffix.',
  'for all registrations of sources, directories, suffixes, base URLs and URIs',
  'URIs are unbounded, and the exceptions need unusual ones: empty segments, colons, dots in a query.',
  ['jschon/catalog/__init__.py:LocalSource.__call__','jschon/catalog/__init__.py:RemoteSource.__call__','jschon/catalog/__init__.py:Catalog.load_json','jschon/uri.py:URI.resolve','jschon/uri.py:URI.validate'])
p('C87','What is collected and what is output',
  'collect_annotations and collect_errors yield, parents first, what is said by exactly the results that have the verdict (valid, invalid) and are reached through results with that verdict, restricted to the keyword and the instance location that are asked for. The basic output is the verdict and one unit for each of these results of the verdict of the root that says something and is for a keyword that is asked for, with its locations and its message. The verbose output mirrors the whole result tree: a unit for each result with its verdict, locations, message and the units of its children, and no other members. A format means the function last registered for it; the five that come with jschon are there from the start, and an unknown name raises KeyError.',
  'for all evaluations, filters, results, histories of registrations and formats',
  'Result trees are unbounded, and which results are listed depends on all verdicts above them.',
  ['jschon/jsonschema.py:Result.collect_annotations','jschon/jsonschema.py:Result.collect_errors','jschon/jsonschema.py:Result.output','jschon/jsonschema.py:Result.__str__','jschon/output.py:output_formatter','jschon/output.py:create_output','jschon/output.py:basic','jschon/output.py:verbose'])
p('C88','Which annotations and errors an evaluation gathers',
  'The annotations that a valid evaluation collects for a location in the instance and a keyword are exactly those that the specification gathers: start at the schema; a keyword that applies to the type of the instance contributes its annotation if its result is valid; then go on with each subschema that the keyword applies, at each location it applies it to: where the subschema has a result of its own only if it is valid, else on the result of the keyword. The same holds of errors, through invalid results. So nothing is lost or made up, and every annotation and error is about the right location, keyword and schema.',
  'for all schemas, instances, locations and keyword names',
  'The tree of results is as deep as schema, instance and references make it, and a single misplaced or dropped result shows only in some combination of keywords.',
  ['jschon/jsonschema.py:JSONSchema.evaluate','jschon/jsonschema.py:Result.collect_annotations','jschon/jsonschema.py:Result.collect_errors','jschon/jsonschema.py:Result.__call__','jschon/vocabulary/applicator.py','jschon/vocabulary/legacy.py'])
p('C89','Catalogs and their names',
  'get_catalog(name) returns the catalog that was created last with that name, and raises CatalogError if there is none. A new catalog starts empty: nothing of earlier catalogs gets into it, not even of one with the same name, and earlier catalogs and other names are not affected. create_catalog(*versions) returns only if all versions are known; then the catalog has exactly the sources and the vocabularies of these versions, and get_metaschema returns the metaschema of each of them, whatever the order of the versions and however often one is given. With an unknown version it raises ValueError; the catalog made so far is left under the name.',
  'for all sequences of operations on catalogs, all names and all lists of versions',
  'Catalogs are registered in a class attribute, so what get_catalog returns depends on everything the process did before; tests use one catalog.',
  ['jschon/__init__.py:create_catalog','jschon/catalog/__init__.py:Catalog.__init__','jschon/catalog/__init__.py:Catalog.get_catalog','jschon/catalog/_2019_09.py:initialize','jschon/catalog/_2020_12.py:initialize','jschon/catalog/_next.py:initialize'])
p('C90','validate judges the schema by its metaschema',
  'The metaschema of a document is the one that its $schema names, otherwise the one given to the constructor, whatever is constructed later. validate() of a schema without metaschema raises JSONSchemaError. Otherwise the verdict of validate() is that of the metaschema document on the schema: for a whole document, on the document as it was written, although the members of the schema object are in another order; for a part of a document, on that part, with the metaschema of the nearest enclosing $schema. It ends if no cycle of references of the metaschema applies to one and the same part of the schema.',
  'for all documents, all metaschema documents of the forms of 2019-09 and 2020-12 with whatever they load, and all histories of constructions in between',
  'Validation of a schema combines construction, the catalog and evaluation; tests validate a handful of schemas against the shipped metaschemas.',
  ['jschon/jsonschema.py:JSONSchema.validate','jschon/jsonschema.py:JSONSchema.metaschema','jschon/jsonschema.py:JSONSchema.metaschema_uri','jschon/vocabulary/core.py:SchemaKeyword','jschon/catalog/__init__.py:Catalog.get_metaschema'])
p('C91','Documents in files',
  'loadf after dumpf makes a document with the same content, whatever the encoding and the line ends of the platform are, if the encoding has the characters that occur; no other file changes. If it lacks one, dumpf raises ValueError; what the file had is lost, and loadf of it raises ValueError rather than returning something else. json_loadf of any file that holds text returns what RFC 8259 says the text denotes, with the line ends as they are in the file, and raises ValueError if it is no JSON text; a file that is not there or may not be read raises OSError, and a file that may not be written is left as it is.',
  'for all documents, after any history of edits, all encodings and line ends, and all contents of files',
  'Tests write one file on one platform; encodings, line ends and what is left after an exception in the middle of writing vary beyond them.',
  ['jschon/utils.py:json_dumpf','jschon/utils.py:json_loadf','jschon/json.py:JSON.loadf','jschon/json.py:JSON.dumpf'])
p('C92','A schema that is edited',
  'A schema has the methods of a JSON document that change it. Those that put something into it, or in its place, raise AttributeError and change nothing. Deletion of a member does what it does to a document: the value of the schema lacks the member, and nothing else changes. But the keywords of the schema stay, and so does what evaluation makes of any instance, for this schema and all others, except if a $dynamicAnchor or $recursiveAnchor is deleted: then evaluation is as if the schema did not have this anchor.',
  'for all documents and histories of constructions, all sequences of such calls on any schemas, and all instances',
  'That an edited schema and its verdicts disagree shows only if a test edits, and then only for the keyword it edits.',
  ['jschon/json.py:JSON.__setitem__','jschon/json.py:JSON.__delitem__','jschon/json.py:JSON.insert','jschon/json.py:JSON.add','jschon/json.py:JSON.remove','jschon/json.py:JSON.replace','jschon/jsonschema.py:JSONSchema.__init__','jschon/vocabulary/core.py:DynamicRefKeyword','jschon/vocabulary/legacy.py:RecursiveRefKeyword_2019_09'])
p('C93','A schema whose keywords are edited',
  'The instances inside a schema that are not schemas have the methods of a JSON document. If the keyword they are in keeps nothing but its value (that is, all but applicators, $schema, $vocabulary, $id, references, anchors, pattern and format), then after any sequence of such calls, with any reading of value and path in between, the schema validates as the edited document would: value returns the edited document, and the verdict on every instance is what the edited document means, the same as that of a schema constructed anew from value. Members, keywords, URIs and the catalog are unaffected.',
  'for all documents of the forms of 2019-09 and 2020-12, all sequences of calls after which the document still has such a form, and all instances',
  'Whether an edit is noticed depends on what each keyword class keeps, on the caches of value and path, and on what was read before.',
  ['jschon/json.py:JSON.__setitem__','jschon/json.py:JSON.__delitem__','jschon/json.py:JSON.insert','jschon/json.py:JSON.add','jschon/json.py:JSON.remove','jschon/json.py:JSON.replace','jschon/json.py:JSON._invalidate_value','jschon/vocabulary/__init__.py:Keyword.__init__','jschon/vocabulary/validation.py','jschon/jsonschema.py:JSONSchema.evaluate'])
p('C94','What fragments stand for',
  'parse_uri_fragment reads a fragment as the pointer that the decoded text is: characters may be written as they are or as their UTF-8 octets, each as a percent sign and two hexadecimal digits in upper or lower case, and a percent sign that is not followed by two hexadecimal digits stands for itself. uri_fragment writes unreserved characters, sub-delimiters and slashes as they are, and all others as octets in upper case.',
  'for all pointers and all fragments whose encoded octets are UTF-8',
  'Fragments in references may be written in many ways, each character encoded or not; tests decode a few that uri_fragment writes.',
  ['jschon/jsonpointer.py:JSONPointer.parse_uri_fragment','jschon/jsonpointer.py:JSONPointer.uri_fragment'])
p('C95','What repr writes can be run',
  'repr of a JSONPointer, a RelativeJSONPointer, a URI, a JSON instance, a JSONPatchOperation and a JSONPatch is Python source that makes the object again: a call whose literals stand for the text of the pointer or URI, the content of the instance, or the op, path, from_ and value of the operation, and for nothing else. In particular instances with the same repr have the same content. Texts are in single quotes, unless they contain a single and no double quote.',
  'for all pointers, URIs made from texts, instances at any time, operations and patches, and whatever characters are printable',
  'Quotes, backslashes, control characters and nesting meet in ways of which tests show few; that the written literal has one reading is a statement about all literals.',
  ['jschon/jsonpointer.py:JSONPointer.__repr__','jschon/jsonpointer.py:RelativeJSONPointer.__repr__','jschon/uri.py:URI.__repr__','jschon/json.py:JSON.__repr__','jschon/jsonpatch.py:PatchOp.__repr__','jschon/jsonpatch.py:JSONPatchOperation.__repr__','jschon/jsonpatch.py:JSONPatch.__repr__'])
p('C96','What can be constructed has the form of a schema',
  'If JSONSchema(doc) returns, doc is a boolean or an object, all of whose members have a keyword class and a value that the class accepts: a value of the form of a schema where one is expected, an array (or a string) of such values, an object of such values, a text that is a URI of the permitted kind, or a regular expression. The same is true of a document that get_schema has loaded.',
  'for all documents, catalogs, URIs and states of the catalog',
  'Tests construct documents that are schemas, and a few that are not; the statement is about all the ways in which a document can fail to be one, at any depth.',
  ['jschon/jsonschema.py:JSONSchema.__init__','jschon/jsonschema.py:JSONSchema._bootstrap','jschon/vocabulary/__init__.py:Keyword.__init__','jschon/vocabulary/__init__.py:Subschema.jsonify','jschon/vocabulary/__init__.py:ArrayOfSubschemas.jsonify','jschon/vocabulary/__init__.py:ObjectOfSubschemas.jsonify','jschon/catalog/__init__.py:Catalog.get_schema'])
p('C97','A subschema that is deleted',
  "del schema['properties']['a'], del schema['allOf'][0] and the like, on a keyword whose subschemas are in an array or an object, take the subschema from the value of the keyword and change no other data; if there is no such subschema, nothing changes. From then on every schema is evaluated as if the keyword did not have that subschema. Schemas, their keywords and URIs, and what the catalog finds, are as before, also for the subschema that was deleted.",
  'for all documents and histories of constructions, additions (C98) and deletions, all sequences of such deletions from keywords of any schemas, and all schemas and instances evaluated afterwards',
  'Deletions of members of a schema are not noticed by evaluation, those of members of its keywords are; tests edit neither. References into what was deleted, dynamic ones too, make the cases many.',
  ['jschon/json.py:JSON.__delitem__','jschon/vocabulary/__init__.py:ArrayOfSubschemas.jsonify','jschon/vocabulary/__init__.py:ObjectOfSubschemas.jsonify','jschon/vocabulary/applicator.py','jschon/jsonschema.py:JSONSchema.evaluate','jschon/catalog/__init__.py:Catalog.get_schema'])
p('C98','A subschema that is added',
  "schema['allOf'].append(v), schema['allOf'][i] = v, schema['allOf'].insert(i, v) with 0 <= i <= len and schema['properties'][k] = v, and the like on keywords whose subschemas are in an array or an object, construct a JSONSchema from v as a child of that array or object and put it at the end, at or before that index or under that name, replacing what was there. Its value is v up to the order of members; all other data and all other schemas are as before, and keys are the positions in the parent. From then on every schema is evaluated as if the keyword had that subschema. If the construction raises, the array or object and all that was there before are unchanged. References in the new subschema are not resolved, so an evaluation that meets one raises.",
  'for all documents and histories of constructions, additions and deletions (C97, of indices that are not negative), all values added, valid or not, and all schemas and instances evaluated afterwards',
  'Tests add nothing to a constructed schema. Additions interact with URIs, anchors and dynamic references in what is added, and with failures half-way through its construction.',
  ['jschon/json.py:JSON.__setitem__','jschon/json.py:JSON.insert','jschon/vocabulary/__init__.py:ArrayOfSubschemas.jsonify','jschon/vocabulary/__init__.py:ObjectOfSubschemas.jsonify','jschon/jsonschema.py:JSONSchema.__init__','jschon/jsonschema.py:JSONSchema.evaluate'])
p('C99','A schema that gets another URI',
  "After schema.uri = u the schema has that URI, catalog.get_schema(u) returns it, nothing is cached under its former URI, and all other URIs find what they found; schema.uri = None only removes. Data and keywords of all schemas are as before, and a schema that leads to no dynamic reference is evaluated as before, whatever is done with schema.uri, schema.metaschema_uri, catalog.add_schema and catalog.del_schema.",
  'for all histories of constructions, all sequences of such changes, all schemas, URIs, caches and instances',
  'Tests set no URIs of constructed schemas. What is found depends on URIs that other schemas share, on anchors, and on the order of changes.',
  ['jschon/jsonschema.py:JSONSchema.uri','jschon/jsonschema.py:JSONSchema.base_uri','jschon/jsonschema.py:JSONSchema.metaschema_uri','jschon/catalog/__init__.py:Catalog.add_schema','jschon/catalog/__init__.py:Catalog.del_schema','jschon/catalog/__init__.py:Catalog.get_schema'])
p('C100','Caches are separate',
  "Constructing schemas with JSONSchema(..., cacheid=c), and loading them with catalog.get_schema(..., cacheid=c), leaves every other cache of schemas as it is, whether it succeeds or not and whatever is loaded in the course of it: with other cache identifiers get_schema returns what it returned, and schemas are evaluated as before, their dynamic references included, also after the block of catalog.cache() in which it happened. (The cache of metaschemas, into which metaschemas are loaded, is apart.)",
  'for all histories of constructions and loads, all later ones with other cache identifiers, all schemas, URIs and instances',
  'Identifiers and anchors of documents that are loaded in turn decide what is cached; tests use a cache to keep documents apart and do not look at the others.',
  ['jschon/catalog/__init__.py:Catalog.cache','jschon/catalog/__init__.py:Catalog.add_schema','jschon/catalog/__init__.py:Catalog.del_schema','jschon/catalog/__init__.py:Catalog.get_schema','jschon/jsonschema.py:JSONSchema.__init__','jschon/vocabulary/core.py:DynamicRefKeyword.evaluate'])
p('C101','A subschema that is added and deleted again',
  "After schema['allOf'].append(v) or schema['allOf'].insert(i, v) or schema['properties'][k] = v with a new k, and del schema['allOf'][i] or del schema['properties'][k] of what was added, all JSON instances and schemas that were there have the data, values, positions, keywords and URIs that they had before, and every schema that leads to no dynamic reference is evaluated as before; others are evaluated as if v had only been constructed.",
  'for all histories of constructions, additions and deletions, all values, all schemas, caches and instances',
  'Tests neither add nor delete subschemas. What was constructed remains in the catalog, which references might notice.',
  ['jschon/json.py:JSON.__setitem__','jschon/json.py:JSON.insert','jschon/json.py:JSON.__delitem__','jschon/jsonschema.py:JSONSchema.__init__','jschon/jsonschema.py:JSONSchema.evaluate','jschon/catalog/__init__.py:Catalog.get_schema'])
p('C102','Patches act where their pointers lead',
  "A patch all of whose pointers are for places inside the value at some pointer changes this value as the patch with the shorter pointers would change it by itself, and nothing else, and raises what that one raises (JSONPatchError if there is no such value): every pointer that parts from that one leads to what it led to before. Two patches inside values at pointers that part give the same result in either order, and both in turn succeed if and only if each one does alone. The same holds of replacements at two pointers that part; what is below a replaced place is what is in the new value.",
  'for all documents, all patches with any of the six operations, and all pointers that part (neither begins with the other)',
  'Independence of edits is about all pairs of patches and all documents; tests apply patches one at a time.',
  ['jschon/jsonpatch.py:JSONPatch.evaluate','jschon/jsonpatch.py:JSONPatchOperation.apply','jschon/jsonpatch.py:add','jschon/jsonpatch.py:remove','jschon/jsonpatch.py:replace','jschon/jsonpatch.py:move','jschon/jsonpatch.py:copy','jschon/jsonpatch.py:test','jschon/jsonpointer.py:JSONPointer.evaluate'])
p('C103','The metaschema of a schema is the one of its first use',
  "schema.metaschema is looked up by schema.metaschema_uri at its first successful use (in the construction of the schema or later) and is the same object ever after, whatever is done with schema.metaschema_uri, with URIs and with the catalog; a use that raises keeps nothing, and no use affects another schema. schema.validate() evaluates the schema with that metaschema. While no metaschema URI is set from outside and no metaschema takes the place of another one in the catalog, that is the one that the catalog has at the time of validate().",
  'for all histories of constructions, loads and uses of metaschemas, and anything in between for the first part',
  'Tests validate a schema right after its construction and do not set metaschema_uri.',
  ['jschon/jsonschema.py:JSONSchema.metaschema','jschon/jsonschema.py:JSONSchema.metaschema_uri','jschon/jsonschema.py:JSONSchema.validate','jschon/jsonschema.py:JSONSchema.__init__','jschon/catalog/__init__.py:Catalog.get_metaschema'])
p('C104','A part of a document is evaluated like a document',
  "schema.evaluate(doc[k1]...[kn]) gives the result that schema.evaluate(JSON(v)) gives for the value v of that part, with the path of the part before every instance location, and ends if and only if that does. So the verdict depends on the value of an instance only, collect_annotations and collect_errors yield the same values for the corresponding locations and none for other ones, and the basic output is the same up to the instance locations.",
  'for all schemas with any keywords of 2019-09 and 2020-12 and references of all kinds, all paths and all values',
  'unevaluatedItems and unevaluatedProperties, siblings and the verdict itself compare instance paths; tests evaluate whole documents.',
  ['jschon/jsonschema.py:JSONSchema.evaluate','jschon/jsonschema.py:Result','jschon/json.py:JSON.path','jschon/output.py:basic','jschon/vocabulary/applicator.py','jschon/vocabulary/legacy.py'])
p('C105','Keywords act independently unless one attends to another',
  "The verdict of a schema object is the conjunction of the verdicts of schema objects among which its keywords are shared out, so that these may be put under allOf instead, provided that no keyword has an effect on one in another of them: if on then and else, properties and patternProperties on additionalProperties, prefixItems on items, an array of items on additionalItems, contains and minContains on each other, contains on maxContains, and any keyword that evaluates members or items on unevaluatedProperties and unevaluatedItems. There are no other dependencies between keywords. Adding keywords that none of the others depends on makes no schema more lenient.",
  'for all schemas in which no reference depends on the dynamic scope, all ways to share out keywords, all instances',
  'Absence of interference is about all combinations of keywords; tests try single keywords and the intended combinations.',
  ['jschon/jsonschema.py:JSONSchema.evaluate','jschon/jsonschema.py:JSONSchema._resolve_dependencies','jschon/jsonschema.py:Result.sibling','jschon/vocabulary/applicator.py','jschon/vocabulary/validation.py','jschon/vocabulary/legacy.py'])
p('C106','Subschemas may be replaced by equivalent ones',
  "In a schema object without unevaluatedProperties and unevaluatedItems, subschemas and targets of $ref may be replaced by schemas that accept the same among the instance, its members and items, and the names of its members: the verdict is the same, whatever else distinguishes the schemas (boolean or object, annotations, what they refer to, where they are).",
  'for all schemas in which no reference depends on the dynamic scope, all replacements of any of their subschemas, all instances',
  'Equivalence of schemas is about all instances; tests compare the verdict of a schema with an expected one.',
  ['jschon/jsonschema.py:JSONSchema.evaluate','jschon/jsonschema.py:Result','jschon/vocabulary/applicator.py','jschon/vocabulary/validation.py','jschon/vocabulary/legacy.py','jschon/vocabulary/core.py:RefKeyword.evaluate'])
with open(os.path.join(os.path.dirname(__file__),'..','properties.jsonl'),'w') as f:
    for x in P: f.write(json.dumps(x, ensure_ascii=False)+'\n')
print(len(P))
