{"id": "C01", "title": "Path text round trip", "statement": "Writing any list of (field name, optional index) pairs as an IDS path string - in Python style with square brackets or in Fortran style with parentheses - and constructing an IDSPath from it yields exactly those parts and indices; Fortran style numbers and slice starts denote one less, slice stops and generic indices (itime, i1) are unchanged, and nested index paths come back as the same nested path.", "quantifier": "all lists of valid field names with any index (none, natural number, slice with optional bounds, generic index, arbitrarily deep nested path), in both notations", "why_tests_cant": "The set of path strings is infinite and nesting depth is unbounded; a test can only sample it.", "anchors": ["imas/ids_path.py: _split_on_matching_parens, _parse_path, IDSPath"]}
{"id": "C02", "title": "Path parsing accepts only well-formed paths", "statement": "Constructing an IDSPath from any string either succeeds, in which case every part is a valid field name, every bracket was balanced, only one bracket style occurs, and every index is a number, slice, generic index or itself a well-formed path; or it raises ValueError. No other outcome is possible.", "quantifier": "all strings", "why_tests_cant": "Rejection must hold for every malformed string; tests list a handful of malformed examples.", "anchors": ["imas/ids_path.py: _split_on_matching_parens, _parse_path, IDSPath.__init__"]}
{"id": "C03", "title": "Path objects do not depend on construction history", "statement": "The result of IDSPath(text) (the parts, the indices or the ValueError) is the same whatever other path texts, valid or invalid, were constructed before, and constructing the same valid text twice returns the same object.", "quantifier": "all histories of IDSPath constructions followed by any text", "why_tests_cant": "The class keeps a process-wide cache filled before the text is validated; only an argument over all histories rules out a stale or half-initialised entry being returned.", "anchors": ["imas/ids_path.py: IDSPath._cache, IDSPath.__new__, IDSPath.__init__"]}
{"id": "C04", "title": "is_ancestor_of is a strict prefix order", "statement": "a.is_ancestor_of(b) is true exactly when the names of b extend the names of a by at least one name (indices are not compared); it is irreflexive, asymmetric and transitive.", "quantifier": "all pairs and triples of IDS paths", "why_tests_cant": "Order laws quantify over all triples of unbounded-length paths.", "anchors": ["imas/ids_path.py: IDSPath.is_ancestor_of"]}
{"id": "C05", "title": "Navigation by path reaches the named element", "statement": "Following a path of names and integer indices from an IDS returns exactly the element reached by accessing the attributes and items one by one (or the same failure), and starting from any other element of the same IDS gives the same element, where names shared with the path of the start element that carry no index mean the elements around the start element. (Indices written on such shared names are ignored by the code; this is shown as a limit.)", "quantifier": "all IDS trees, all start elements in the tree, all paths of names and integer / nested-path indices", "why_tests_cant": "The code takes a shortcut over the common prefix of two paths and climbs parents; equality with plain navigation must hold for every tree and pair of paths.", "anchors": ["imas/ids_path.py: IDSPath.goto, IDSPath.goto_metadata", "imas/ids_base.py: IDSBase._path"]}
{"id": "C06", "title": "The path reported for an element leads back to it", "statement": "For every element of an IDS, resolving the path text the element reports from the IDS root returns that very element.", "quantifier": "all IDS trees (any nesting of structures and arrays of structures) and all elements in them", "why_tests_cant": "Depends on index bookkeeping for all positions at every nesting depth.", "anchors": ["imas/ids_base.py: IDSBase._path", "imas/ids_path.py: IDSPath.goto"]}
{"id": "C07", "title": "Tree iteration visits every filled node exactly once, in document order", "statement": "tree_iter over an element yields each filled leaf below it exactly once and nothing else, parents before children when include_node/leaf_only=False is requested, siblings in Data Dictionary order and array elements in index order.", "quantifier": "all IDS trees, all option combinations", "why_tests_cant": "Completeness and no-duplication are claims over all tree shapes.", "anchors": ["imas/util.py: tree_iter, _tree_iter", "imas/ids_structure.py: IDSStructure.iter_nonempty_"]}
{"id": "C08", "title": "A structure has a value exactly when something below it is set", "statement": "has_value of a structure is true exactly when some descendant leaf is set or some descendant array of structures is non-empty; has_value of an array of structures is true exactly when its length is positive; merely reading attributes never changes any has_value, nor any value (an unset array that is read becomes an empty array, which is also what it reads as).", "quantifier": "all IDS trees and all sequences of attribute reads", "why_tests_cant": "Children are created on first access; only induction over access sequences shows reads are unobservable.", "anchors": ["imas/ids_structure.py: IDSStructure.has_value, __getattr__, iter_nonempty_", "imas/ids_struct_array.py: has_value", "imas/ids_primitive.py: has_value"]}
{"id": "C09", "title": "Assigned values read back; the default value means unset", "statement": "After assigning a value of the right type and rank to a data node, reading it returns that value; the node has a value unless the assigned scalar equals the type's default or the array is empty, in which case it reads back as the default and is reported unset. The size, shape and length a node reports are those of the value read from it.", "quantifier": "all data types, all values of that type and rank, all assignment histories", "why_tests_cant": "Ranges over all values and histories of assignments.", "anchors": ["imas/ids_primitive.py: IDSPrimitive.value, has_value, IDSString1D, IDSNumericArray"]}
{"id": "C10", "title": "Array-of-structures resize and append", "statement": "resize(n, keep=True) leaves the first min(n, len) elements untouched and makes the length n with empty new elements; resize(n, keep=False) gives n empty elements; append adds exactly the given elements at the end; assigning an item replaces exactly that item, or raises IndexError without changing the array.", "quantifier": "all arrays, all sizes, all sequences of resize/append/item assignment", "why_tests_cant": "A claim about every operation history.", "anchors": ["imas/ids_struct_array.py: IDSStructArray.resize, append, __setitem__, __getitem__"]}
{"id": "C11", "title": "Deep copies are equal and independent", "statement": "copy.deepcopy of an IDS that is not lazy-loaded succeeds (given enough stack), leaves the original unchanged, gives an IDS that compares equal to the original and has the same hash, and no later operation on either one (assignments, resizing, in-place writes to arrays, further copies) changes anything that can be seen through the other. Lazy-loaded IDSs are refused.", "quantifier": "all IDS trees, all subsequent modification sequences", "why_tests_cant": "Independence must hold for every later modification history of either object.", "anchors": ["imas/ids_structure.py: __deepcopy__, __eq__", "imas/ids_struct_array.py: __deepcopy__", "imas/ids_primitive.py: __deepcopy__"]}
{"id": "C12", "title": "Equality of IDSs means equal contents", "statement": "Two IDS structures of the same type compare equal (idsdiffgen yields nothing) exactly when they have the same filled leaf values and the same array-of-structures lengths everywhere; equality is reflexive and symmetric. idsdiffgen reports a path as present on one side only exactly if something is filled there on that side and nothing is on the other, and as different on both sides exactly if both have values, sizes or kinds of nodes there that are not the same; no value that has no equal on the other side is left without a report at its path or above. Values are the same when they have the same type, shape and items, where NaNs are equal to each other and zero bytes at the end of strings do not count.", "quantifier": "all pairs of IDS trees of the same Data Dictionary type", "why_tests_cant": "An 'exactly when' over all pairs of trees.", "anchors": ["imas/util.py: idsdiffgen, _idsdiffgen", "imas/ids_structure.py: __eq__"]}
{"id": "C13", "title": "The content hash depends on the contents and on nothing else", "statement": "calc_hash gives the same result for two IDSs with the same filled contents, regardless of creation/access order, unset nodes, and ids_properties/version_put; and two IDSs of one type hash differently whenever their other contents differ, up to collisions of the underlying digest function.", "quantifier": "all IDS trees of a type, all access histories, all digest functions without collisions", "why_tests_cant": "Injectivity of the byte encoding ranges over all pairs of trees.", "anchors": ["imas/util.py: calc_hash", "imas/ids_structure.py: _xxhash", "imas/ids_struct_array.py: _xxhash", "imas/ids_primitive.py: _xxhash"]}
{"id": "C14", "title": "Data type names are decoded correctly", "statement": "Decoding a Data Dictionary data_type string yields the documented type and number of dimensions for every legacy and regular spelling, and any other string raises an error, except that text after the digit of a rank is ignored; no string has two meanings.", "quantifier": "all strings", "why_tests_cant": "The rejection part ranges over all strings.", "anchors": ["imas/ids_data_type.py: IDSDataType.parse"]}
{"id": "C15", "title": "Lazy-loaded data is read only", "statement": "On a lazily loaded IDS assigning data nodes (by attribute, path or value), resizing, appending, replacing array elements, deep copying structures, putting and serializing raise an error and change nothing. After any sequence of reads, attempted modifications and operations on other IDSs, every value that is read is the one in the file. Three operations have no check and are excluded: replacing a whole structure or array of structures by attribute, writing in place to an array that was read, and appending a data node of the lazy IDS to an array of structures of another IDS.", "quantifier": "all lazily loaded IDSs and file contents, all paths, all programs of reads, attempted modifications, copies, new IDSs and lazy gets (without the three excluded operations)", "why_tests_cant": "Claim over every operation history.", "anchors": ["imas/ids_primitive.py: value setter", "imas/ids_struct_array.py: resize, append, __setitem__", "imas/ids_structure.py", "imas/ids_toplevel.py: serialize", "imas/db_entry.py: _put"]}
{"id": "C16", "title": "Identifier assignment and comparison", "statement": "Assigning an identifier (by member, name or alias) to an identifier structure stores its canonical name, index and description; an identifier equals a structure exactly when the index matches and the name is the canonical name, an alias or empty; assigning then comparing is always true, and a name not in the enum raises an error without changing the structure.", "quantifier": "all identifier enums, all identifier structures, all assigned values", "why_tests_cant": "Ranges over all enums and structure contents.", "anchors": ["imas/ids_identifiers.py: IDSIdentifier", "imas/ids_structure.py: _assign_identifier, __setattr__"]}
{"id": "C17", "title": "Coordinate specifications are parsed correctly", "statement": "For every coordinate specification of the Data Dictionary grammar (size '1...N', fixed size '1...k', one path, alternatives joined by ' OR ', references to another IDS) the parsed coordinate has exactly the described size constraint and references, and whether it is validated or has alternatives follows from the number of rules.", "quantifier": "all coordinate specification strings", "why_tests_cant": "Infinite set of strings.", "anchors": ["imas/ids_coordinates.py: IDSCoordinate"]}
{"id": "C18", "title": "Validation accepts only consistent IDSs", "statement": "If validate() returns normally then the time mode is valid, no time-dependent node is filled in time-independent mode, the root time is filled when homogeneous data requires it, and for every filled node each validated dimension has the size prescribed by its coordinate.", "quantifier": "all IDS trees and all Data Dictionary coordinate metadata", "why_tests_cant": "Soundness over all trees.", "anchors": ["imas/ids_toplevel.py: validate", "imas/ids_coordinates.py: _validate, _capture_goto_errors", "imas/ids_base.py: _validate"]}
{"id": "C19", "title": "Validation rejects only inconsistent IDSs", "statement": "validate() raises ValidationError only if some filled node violates one of the listed rules, and then names such a violation; validation never modifies the IDS.", "quantifier": "all IDS trees and coordinate metadata", "why_tests_cant": "Completeness over all trees.", "anchors": ["imas/ids_toplevel.py: validate", "imas/ids_coordinates.py: _validate"]}
{"id": "C20", "title": "Coordinate lookup", "statement": "Indexing coordinates returns the coordinate node for homogeneous or heterogeneous time as appropriate, an index range when there is no coordinate, and for alternatives the one filled alternative; it raises an error when several are filled.", "quantifier": "all trees, all dimensions, all sets of filled alternatives", "why_tests_cant": "All subsets of filled alternatives in all trees.", "anchors": ["imas/ids_coordinates.py: IDSCoordinates.__getitem__, time_index"]}
{"id": "C21", "title": "Version maps are mutually inverse", "statement": "For any two Data Dictionary versions of an IDS whose annotations identify fields one to one, the old-to-new map sends an old path to a new path if and only if the new-to-old map sends it back; paths are linked exactly if the annotations identify them; a path mapped to nothing has no equivalent of a fitting type; identified paths whose change of type is announced but not supported are mapped to nothing; and an unmapped path exists with the same name and a fitting type in the other version, lies above or below another entry, or is the path of a field of the other version that was renamed. Annotations may move fields to and from inner structures; type changes are recorded on both sides with opposite handlers. The one-way DD3 to DD4 migrations (ids_properties/source, obsolete nodes of DD 3.42) are exempt.", "quantifier": "all pairs of Data Dictionary trees with arbitrary rename annotations", "why_tests_cant": "Must hold for all future DD releases, not only the shipped ones.", "anchors": ["imas/ids_convert.py: DDVersionMap, _build_map, _add_rename, _map_missing, NBCPathMap"]}
{"id": "C22", "title": "Conversion moves every convertible value and invents none", "statement": "Converting an IDS to another DD version yields exactly the values of the source at nodes that exist in the target, at their renamed path; nodes without equivalent are dropped; nothing else is set (besides documented extra conversions); converting with no differences is the identity.", "quantifier": "all IDS trees, all version maps", "why_tests_cant": "All trees and all maps.", "anchors": ["imas/ids_convert.py: convert_ids, _copy_structure, _get_target_item"]}
{"id": "C23", "title": "Supported type changes round trip", "statement": "Converting a node whose type changed between versions (structure to array of structures, scalar to 1D, 0D/1D integers and strings, etc.) to the other version and back returns the original value whenever the first conversion is lossless, and reports the documented failure otherwise.", "quantifier": "all values of the changed nodes", "why_tests_cant": "All values and lengths.", "anchors": ["imas/ids_convert.py: _type_changed, _structure_to_aos, _aos_to_structure, _type_changed handlers"]}
{"id": "C24", "title": "COCOS sign conversion is an involution", "statement": "Converting an IDS from DD3 to DD4 negates exactly the nodes listed as COCOS-transformed; converting back restores every value.", "quantifier": "all trees and value arrays", "why_tests_cant": "All values.", "anchors": ["imas/ids_convert.py: _cocos_change, _3to4_sign_flip_paths, _apply_3to4_conversion"]}
{"id": "C25", "title": "Closed-contour convention conversion", "statement": "Dropping the repeated last point of closed outlines when converting to DD4 and re-adding it when converting to DD3 are inverse to each other on outlines whose closed flag agrees with their points (closed outlines without NaN in the first point, open outlines that do not end where they start), and leave the points of open outlines unchanged.", "quantifier": "all outline coordinate arrays, all closed flags", "why_tests_cant": "All lengths and values.", "anchors": ["imas/ids_convert.py: _remove_last_point_conditional, _repeat_first_point_conditional, _repeat_first_point, _remove_last_point"]}
{"id": "C26", "title": "Circuit connection matrices", "statement": "Converting circuit connections between the DD3 (pairs of columns) and DD4 (signed single column) conventions and back is the identity exactly on well-formed matrices; matrices with an odd number of DD3 columns are left unconverted.", "quantifier": "all matrices", "why_tests_cant": "All sizes.", "anchors": ["imas/ids_convert.py: _circuit_connections_3to4, _circuit_connections_4to3"]}
{"id": "C27", "title": "Merging time bases when converting pulse schedules", "statement": "When pulse_schedule references with individual time bases are converted to one shared time base, the time base of each part of the schedule is the sorted union of all times in that part, every original sample (of data with strictly increasing times) keeps its value at its own time, other values are interpolated between the two neighbouring samples (integers keep the sample before) inside the original range and equal the first or last sample outside it, and data that do not depend on time are copied unchanged.", "quantifier": "all collections of time bases and data", "why_tests_cant": "All numbers and lengths of time bases.", "anchors": ["imas/ids_convert.py: _pulse_schedule_3to4, _pulse_schedule_resample_callback"]}
{"id": "C28", "title": "Every converted IDS carries provenance", "statement": "An explicit conversion with provenance adds exactly one provenance entry for the converted path with the origin recorded and keeps all existing entries; without it nothing is added.", "quantifier": "all IDSs with any existing provenance entries", "why_tests_cant": "All prior states.", "anchors": ["imas/ids_convert.py: _add_provenance_entry, convert_ids"]}
{"id": "C29", "title": "netCDF dimensions match data rank", "statement": "For every node of every Data Dictionary the netCDF dimension tuple consists of the dimensions of its enclosing arrays of structures (outermost first) followed by exactly as many own dimensions as the node's rank, and dimensions shared through coordinates are the same name. The coordinates listed for a variable are those of the arrays of structures around it followed by exactly the coordinates of its own dimensions and the labels of its elements.", "quantifier": "all Data Dictionary metadata trees without circular coordinate references, both time modes", "why_tests_cant": "All metadata trees, including cyclic ones.", "anchors": ["imas/backends/netcdf/nc_metadata.py: NCMetadata"]}
{"id": "C30", "title": "netCDF storage round trip", "statement": "Storing an IDS to a netCDF group and reading it back (eagerly) reproduces every set value and every array-of-structures length and sets nothing else, whether or not shapes are ragged.", "quantifier": "all IDS trees, all ragged shapes, all values that do not equal the reserved fill value", "why_tests_cant": "All ragged shapes at all nesting depths.", "anchors": ["imas/backends/netcdf/ids_tensorizer.py: IDSTensorizer", "imas/backends/netcdf/ids2nc.py: IDS2NC", "imas/backends/netcdf/nc2ids.py: NC2IDS", "imas/backends/netcdf/iterators.py"]}
{"id": "C31", "title": "netCDF dimension sizes are the maximum data size", "statement": "The stored size of each netCDF dimension equals the maximum extent of all data and arrays of structures that use it, so every stored value fits and no dimension is larger than needed.", "quantifier": "all IDS trees", "why_tests_cant": "Maxima over all nodes in all trees.", "anchors": ["imas/backends/netcdf/ids_tensorizer.py: determine_data_shapes"]}
{"id": "C32", "title": "netCDF lazy reading equals eager reading", "statement": "For any order of accesses to a lazily loaded netCDF IDS, each node reads the same value (or unset) and each array of structures the same length as with an eager get.", "quantifier": "all stored groups, all access sequences", "why_tests_cant": "All access orders.", "anchors": ["imas/backends/netcdf/nc2ids.py: LazyContext, LazyArrayStructContext, NC2IDS.run"]}
{"id": "C33", "title": "Invalid netCDF groups are rejected with the documented error", "statement": "Reading a netCDF group raises InvalidNetCDFEntry exactly when the mandatory time mode is missing or invalid, a variable is unknown, or its type, dimensions, coordinates, units, sparsity or attributes disagree with the Data Dictionary; groups written by the library are always accepted.", "quantifier": "all netCDF groups", "why_tests_cant": "All groups.", "anchors": ["imas/backends/netcdf/nc2ids.py: validate_variables, _validate_variable, _validate_sparsity"]}
{"id": "C34", "title": "A netCDF entry is a write-once store", "statement": "In a netCDF data entry a put to a fresh (IDS, occurrence) makes exactly that IDS readable there and changes no other; a second put to it, a put_slice or delete is refused without changing anything; list_all_occurrences returns the sorted list of stored occurrences. Reading an IDS of which nothing was put raises a DataEntryException (an occurrence to which nothing was put raises an IndexError if another occurrence exists).", "quantifier": "all histories of put, put_slice, delete_data, get and list_all_occurrences, including puts that fail midway", "why_tests_cant": "All operation histories and failure points.", "anchors": ["imas/backends/netcdf/db_entry_nc.py: NCDBEntryImpl"]}
{"id": "C35", "title": "to_xarray includes all coordinates", "statement": "Selecting paths for conversion to xarray includes every coordinate needed by the selected paths, transitively, and nothing else, and the selection terminates. The data set has one variable for each of these paths that is a filled data node, with every value at the indices of its array-of-structures elements and fill values elsewhere; the coordinates of the data set are exactly the coordinates of its variables that are filled.", "quantifier": "all metadata coordinate graphs including cycles, all selections, all IDS trees", "why_tests_cant": "Closure over all graphs.", "anchors": ["imas/backends/netcdf/ids_tensorizer.py: include_coordinate_paths, filter_coordinates", "imas/_to_xarray.py"]}
{"id": "C36", "title": "Access Layer put/get round trip", "statement": "Putting an IDS in a data entry and getting it back returns an equal IDS; nodes not set in the put IDS are unset afterwards even if an earlier put had set them.", "quantifier": "all IDS trees, all previous contents of the occurrence", "why_tests_cant": "All trees and histories.", "anchors": ["imas/backends/imas_core/db_entry_al.py: put, get", "imas/backends/imas_core/db_entry_helpers.py: put_children, get_children, delete_children"]}
{"id": "C37", "title": "put_slice touches only time-dependent data", "statement": "put_slice to an existing occurrence writes only nodes that are time dependent, never deletes anything, refuses a different time mode without writing, and behaves as put on an empty occurrence.", "quantifier": "all IDS trees, all stored contents", "why_tests_cant": "All trees and stored states.", "anchors": ["imas/backends/imas_core/db_entry_al.py: put", "imas/backends/imas_core/db_entry_helpers.py: put_children"]}
{"id": "C38", "title": "Lazy loading returns the same data as eager loading for every access order", "statement": "For any sequence of accesses to lazily loaded IDSs of an open data entry - interleaved between arrays of structures at any nesting depth and with other operations on the entry that do not write the same occurrence - each node reads the value an eager get at that path would give.", "quantifier": "all access histories, all tree shapes", "why_tests_cant": "The Access Layer contexts are shared mutable iterators kept in a cache; only an invariant over all histories shows the iterator is positioned right.", "anchors": ["imas/backends/imas_core/al_context.py: LazyALContext.get_context, LazyALArrayStructContext, LazyALArrayStructChildContext", "imas/ids_struct_array.py: _load"]}
{"id": "C39", "title": "Access Layer contexts are opened and closed in stack discipline and none leaks", "statement": "Every low-level context opened by a get, put, delete or lazy access is closed exactly once, children before parents, also when an operation raises; after closing the entry no context remains open.", "quantifier": "all operation histories and all points at which the low level fails", "why_tests_cant": "All crash points in all histories.", "anchors": ["imas/backends/imas_core/al_context.py", "imas/backends/imas_core/db_entry_al.py: _clear_lazy_ctx_cache, close"]}
{"id": "C40", "title": "Data entry life cycle", "statement": "Operations on a data entry that is not open raise an error and do nothing; open/create on an open entry is refused or reopens as documented; close is idempotent; leaving a with-block always closes the entry. An entry constructed with legacy parameters can be opened whenever it is not open, one constructed with a URI can never be opened again. Every exception raised by the storage backend reaches the caller, and no further call is made after it.", "quantifier": "all sequences of open, create, close, get, put, delete, list operations", "why_tests_cant": "All operation sequences.", "anchors": ["imas/db_entry.py: DBEntry"]}
{"id": "C41", "title": "Version handling on get", "statement": "get returns an IDS in the entry's DD version when autoconvert is on and in the stored version when it is off; data of another major version is converted only when allowed, and the warning/err decision depends only on the pair of versions.", "quantifier": "all pairs of versions, all option combinations", "why_tests_cant": "All version pairs.", "anchors": ["imas/db_entry.py: DBEntry._get"]}
{"id": "C42", "title": "Only storable IDSs reach the backend", "statement": "put and put_slice pass an IDS to the backend only if it has a valid time mode, is not lazy-loaded and (unless disabled) validates; otherwise they raise and the backend is not called; a constant IDS can only be put whole; after a successful put, version information is stored.", "quantifier": "all IDSs, all backends, environment settings", "why_tests_cant": "All combinations.", "anchors": ["imas/db_entry.py: DBEntry._put"]}
{"id": "C43", "title": "Serialization round trip and cleanup", "statement": "deserialize(serialize(ids)) restores the IDS for every supported protocol; without a protocol the best available one is used; other protocols and IDSs without valid time mode are refused; malformed data raises an error; no temporary file remains after serialization or deserialization, also when it fails at any point.", "quantifier": "all IDSs, all byte strings, all failure points", "why_tests_cant": "All byte strings and crash points.", "anchors": ["imas/ids_toplevel.py: serialize, deserialize"]}
{"id": "C44", "title": "MDSplus model cache is safe under concurrency", "statement": "Whenever the model directory lookup returns, the returned directory contains a complete model, for any interleaving of any number of processes, and a returned model directory stays complete.", "quantifier": "all interleavings of any number of processes, with failures at any step", "why_tests_cant": "All schedules and crash points.", "anchors": ["imas/backends/imas_core/mdsplus_model.py: mdsplus_model_dir, safe_replace, wait_for_model, model_exists"]}
{"id": "C45", "title": "Cached Data Dictionary definition files are complete", "statement": "The path returned for the UDA backend always refers to a file holding the complete definition of the requested version, also if an earlier extraction was interrupted at any point.", "quantifier": "all prior file contents and crash points", "why_tests_cant": "All crash points.", "anchors": ["imas/backends/imas_core/uda_support.py: extract_idsdef, get_dd_version_from_idsdef_xml"]}
{"id": "C46", "title": "Selecting a Data Dictionary version", "statement": "Requesting a version loads exactly that version if it is available and otherwise raises UnknownDDVersion; the default is the newest available version in version order; the order of lookup (explicit argument, environment path, environment version, default) is fixed.", "quantifier": "all sets of available versions, all argument and environment combinations", "why_tests_cant": "All combinations.", "anchors": ["imas/dd_zip.py: dd_etree, dd_xml_versions, latest_dd_version, get_dd_xml", "imas/ids_factory.py: IDSFactory"]}
{"id": "C47", "title": "Metadata path lookup agrees with the data tree", "statement": "Looking up a metadata object by path (with '/' or '.') gives the metadata whose own path is that path, and for every element reached in an IDS its metadata is the one found by its index-free path; unknown paths raise KeyError.", "quantifier": "all metadata trees, all paths", "why_tests_cant": "All trees.", "anchors": ["imas/ids_metadata.py: IDSMetadata.__getitem__, __init__"]}
{"id": "C48", "title": "Time resampling", "statement": "Resampling an IDS with homogeneous time interpolates every filled dynamic data node that is not itself named time along its time dimension (line by line, all other dimensions kept), sets the time of the IDS to the new times, and changes nothing else: static nodes, unset nodes and sizes of arrays of structures stay as they are; resampling to the same times changes no value. Any other time mode raises an error without any change. A filled dynamic node without a time dimension makes resampling raise an error (then an IDS resampled in place may be left partly resampled).", "quantifier": "all IDS trees, all time bases, all interpolation functions", "why_tests_cant": "The function walks the whole tree and writes the results in place; only an argument over all trees shows that each node is interpolated exactly once along the right axis and no other node changes.", "anchors": ["imas/_util.py: resample_impl"]}
{"id": "C49", "title": "Implicit conversion at get/put agrees with the version map", "statement": "When reading or writing in another minor DD version, a node is transferred exactly if it exists in both versions without type change, from/to its renamed path; other nodes are skipped without error. (Nodes that have both another name and another type, or that move into or out of an array of structures, are excluded.)", "quantifier": "all metadata trees, all maps, all data", "why_tests_cant": "All trees and maps.", "anchors": ["imas/backends/imas_core/db_entry_helpers.py: get_children, _get_child, put_children", "imas/backends/netcdf/nc2ids.py: run"]}
{"id": "C50", "title": "Pattern search over metadata is exact", "statement": "find_paths returns exactly the paths of the Data Dictionary nodes whose path matches the query, in document order and without duplicates.", "quantifier": "all metadata trees, all queries", "why_tests_cant": "All trees and queries.", "anchors": ["imas/util.py: find_paths"]}
{"id": "C51", "title": "Reading never writes", "statement": "Getting IDSs (whole, slices, samples), lazy gets, accesses to lazily loaded IDSs in any order, reading the stored version and closing the entry make no call to the low level that writes or deletes data or opens a context that allows writing.", "quantifier": "all operation histories, all low-level behaviours including failures at any call", "why_tests_cant": "All histories and all failure points.", "anchors": ["imas/backends/imas_core/db_entry_al.py: get, read_dd_version, close", "imas/backends/imas_core/al_context.py: LazyALContext", "imas/backends/imas_core/db_entry_helpers.py: get_children, _get_child"]}
{"id": "C52", "title": "Deleting is never partial", "statement": "delete_data of an Access Layer data entry either deletes the whole IDS or raises an error and leaves all stored data unchanged. (At this commit it always raises: delete_children is called with one argument too many.)", "quantifier": "all states of the entry, all low-level behaviours", "why_tests_cant": "All states and failure points.", "anchors": ["imas/backends/imas_core/db_entry_al.py: delete_data", "imas/backends/imas_core/db_entry_helpers.py: delete_children"]}
{"id": "C53", "title": "Listing occurrences gives the values that belong to them", "statement": "list_all_occurrences with a node path returns the occurrences in the order the backend reports, and as the k-th value the node at that path in what a lazy get of the k-th occurrence returns; if getting one of them or finding the node fails, the error is passed on and no list is returned.", "quantifier": "all entries, all backend behaviours, any number of occurrences, all paths", "why_tests_cant": "The number of occurrences and the failure point are unbounded.", "anchors": ["imas/db_entry.py: list_all_occurrences"]}
{"id": "C54", "title": "Paths and time bases passed to the low level", "statement": "Get, put, put_slice and accesses to lazy IDSs name each node by its Data Dictionary path relative to the context it is in; nodes that depend on time are read and written with time base /time in IDSs with homogeneous time, with their own time base otherwise, and are left alone in time-independent IDSs; other nodes have no time base.", "quantifier": "all metadata trees, all IDS contents, all low-level behaviours, all access histories", "why_tests_cant": "All trees, modes and call sequences.", "anchors": ["imas/backends/imas_core/db_entry_helpers.py: get_children, _get_child, put_children", "imas/backends/imas_core/db_entry_al.py: get, put"]}
{"id": "C55", "title": "Equilibrium boundaries become a contour tree", "statement": "Converting an equilibrium from DD3 to DD4 gives every time slice that has a poloidal flux on the magnetic axis exactly these contour tree nodes: one for the axis (a minimum or maximum); if the separatrix has a flux, its limiter point or one node for each of its x-points (the outline is stored with the first one only); if there is also a secondary separatrix with a flux, one for each of its x-points. The axis is first, then the main node of each separatrix, then the additional x-points. Positions are those of the source, fluxes are negated. Slices without a flux on the axis keep the nodes they have, and no slice gets the nodes of another one. (A secondary separatrix is dropped if the first one has no flux.)", "quantifier": "any number of slices and x-points, all values, set and unset", "why_tests_cant": "The number of slices and x-points and which of the optional nodes are filled are arbitrary.", "anchors": ["imas/ids_convert.py: _equilibrium_boundary_3to4"]}
{"id": "C56", "title": "Obsolete DD 3.42 nodes are converted like those of DD 3.41", "statement": "When converting DD 3.42 or later to DD4, a node that DD4 no longer has and that was renamed according to the map from DD 3.41 is converted to the renamed node, with everything below it; nodes that are not obsolete are converted as without this rule, every entry of the map comes from one of the two maps, and ids_properties/source goes to ids_properties/provenance. (If the obsolete node and its replacement are both filled, the later one in document order overwrites the other.)", "quantifier": "all dictionaries in document order with one-to-one annotations", "why_tests_cant": "The Data Dictionary is data, not code; only an argument over all dictionaries shows that the merged map is right.", "anchors": ["imas/ids_convert.py: _apply_3to4_conversion"]}
{"id": "C57", "title": "Data of another version is found by its dictionary", "statement": "Reading data of an older or newer minor version, and putting an IDS into a data entry of another minor version, transfers exactly the values and array sizes of the nodes that the change annotations of the two dictionaries identify: renamed nodes and the contents of renamed structures are found, and nodes that exist in one version only, changed their type or are inside something that changed its type are left out. Renamed nodes get the low-level path of the other version, and its time base. (Inside dynamic arrays of structures renamed nodes get a time base although other nodes there have none; renamed nodes with another type are not left out.)", "quantifier": "all pairs of dictionaries in document order with one-to-one annotations (nodes may have moved to another structure, but not out of an array of structures), all IDS contents, all time modes", "why_tests_cant": "The Data Dictionary is data, not code; the claim is about every pair of versions and every IDS.", "anchors": ["imas/ids_convert.py: DDVersionMap, _get_ctxpath, _get_tbp", "imas/backends/imas_core/db_entry_helpers.py: get_children, put_children", "imas/ids_metadata.py: IDSMetadata"]}
{"id": "C58", "title": "Conversion moves exactly what the dictionaries identify", "statement": "convert_ids between two versions moves each value to the node that the change annotations of the two dictionaries identify with its own node: fields on the way are renamed, elements of arrays of structures keep their index, and a structure that became an array of structures is its first element (and vice versa, if the array has one element). Arrays keep their number of elements. Nothing else appears in the result, apart from what conversion functions of changed fields write. No error is raised unless a value cannot be assigned to the identified field or a conversion function raises one. Converting back finds every such value at its original place, so no value is lost or exchanged by converting to another version and back. (Changes of type inside renamed structures must be announced by the field itself; otherwise conversion raises an error.)", "quantifier": "all pairs of dictionaries in document order with one-to-one annotations (nodes may have moved out of structures that the newer version does not have any more), all IDS contents, both directions", "why_tests_cant": "The Data Dictionary is data, not code; the claim is about every pair of versions and every IDS.", "anchors": ["imas/ids_convert.py: DDVersionMap, convert_ids, _copy_structure, _get_target_item"]}
{"id": "C59", "title": "Slices and samples are what the backend shows", "statement": "get, get_slice and get_sample of an occurrence that holds an IDS give at every node of the Data Dictionary exactly the value and array size that the backend shows for the whole IDS, the requested slice or the requested time range; IDSs that are constant are always read as a whole. Stored data is not changed. An occurrence that holds no IDS, or an invalid homogeneous_time, cannot be read and nothing changes.", "quantifier": "all stored data, all metadata trees, all backends, all slice and range requests", "why_tests_cant": "All trees and stored contents; which of the requests goes to the backend is not observable from the result of a single example.", "anchors": ["imas/backends/imas_core/db_entry_al.py: get", "imas/backends/imas_core/db_entry_helpers.py: get_children"]}
{"id": "C60", "title": "The version of stored data", "statement": "Reading the Data Dictionary version of an occurrence gives the stored version if the occurrence holds an IDS, and raises a DataEntryException otherwise. After a put it gives the version in the ids_properties/version_put/data_dictionary of the IDS that was put, whatever the occurrence held before.", "quantifier": "all stored data, all IDS contents, all backends", "why_tests_cant": "All trees and stored contents.", "anchors": ["imas/backends/imas_core/db_entry_al.py: read_dd_version, put"]}
{"id": "C61", "title": "Meaning of metadata at its place in the tree", "statement": "The metadata of a node says that it is time dependent if and only if it or a structure or array of structures around it is marked as dynamic in the Data Dictionary. Its context path is the path from the nearest array of structures around it. The time base of a dynamic array of structures is the time inside it, that of a dynamic data node is the one in the Data Dictionary unless something around it is dynamic, and other nodes have none. Units as_parent stand for the units of the node around it, through any number of levels. The coordinates of a node are those in the Data Dictionary, one for every dimension. A Data Dictionary is accepted if and only if every element has a name, a valid path, a known type and rank and a known kind of time dependence; otherwise an error is raised.", "quantifier": "all Data Dictionary trees, all nodes", "why_tests_cant": "The Data Dictionary is data, not code; trees of any depth and size.", "anchors": ["imas/ids_metadata.py: IDSMetadata", "imas/ids_data_type.py: IDSDataType.parse"]}
{"id": "C62", "title": "References stand for places", "statement": "A program that keeps references to nodes of an IDS can rely on them: reading or assigning a value, accessing a child, reading an item, resizing, appending, assigning an item and assigning a structure through a reference change exactly the place in the IDS at which the referenced node is, as if the same had been done with the path from the top of the IDS; all other places keep their contents and all references to nodes that are still in the IDS stay valid. Writing to an array in place changes exactly the data nodes that hold an array with the same memory. New elements and new IDSs have nothing in common with existing IDSs. Failing operations change nothing.", "quantifier": "all IDS contents in which no node is at two places, all nodes, all arguments, all sequences of these operations", "why_tests_cant": "Aliasing between Python objects: any number of references to nodes anywhere in an IDS of any shape, in any state of creation of its children.", "anchors": ["imas/ids_structure.py: IDSStructure.__getattr__, __setattr__", "imas/ids_struct_array.py: IDSStructArray.__getitem__, __setitem__, append, resize", "imas/ids_primitive.py: IDSPrimitive.value"]}
{"id": "C63", "title": "Arguments of a data entry", "statement": "The arguments of DBEntry mean the URI and mode, or the legacy parameters with their default values, exactly as these two signatures say: never both, keyword arguments in any order, and shot as another name of pulse. Other calls raise a TypeError, or a ValueError if both shot and pulse are given by name, before anything is opened. A URI is a netCDF file if and only if it ends with .nc and does not start with imas:, and goes to the Access Layer otherwise. With legacy parameters nothing is opened until open or create is called. open and create raise a RuntimeError without any effect if the entry is open or was created with a URI.", "quantifier": "all positional and keyword arguments, all URIs", "why_tests_cant": "All combinations of positional and keyword arguments; unit tests show some of them.", "anchors": ["imas/db_entry.py: DBEntry.__init__, _get_uri_mode, _get_legacy_params, _select_implementation, _open_pulse"]}
{"id": "C64", "title": "Opening with the Access Layer", "statement": "Opening an entry with an IMAS URI asks the Access Layer at most once, with this URI and the action that the mode stands for; unknown modes raise a ValueError and nothing is opened. Before, the backend that the URI names (in upper or lower case, with or without host, query and fragment) is prepared: UDA is pointed to a definition with the Data Dictionary version of the entry or to the given file, MDSplus to its models if the entry may be created; nothing else in the environment or the cache changes. If this is impossible the error is raised and nothing has changed. The options of the entry are those of the query, where the last value of an option counts. Legacy parameters are opened as the URI that the Access Layer gives for them, with default values for missing user name, version and options. (A pathlib.Path as xml_path always fails with UDA.)", "quantifier": "all URIs of IMAS, all modes, all contents of the environment and the cache, all answers of the Access Layer", "why_tests_cant": "All URIs and states of the environment and of the cache of definitions; UDA is not available in tests.", "anchors": ["imas/backends/imas_core/db_entry_al.py: ALDBEntryImpl.__init__, from_uri, from_pulse_run, _setup_backend", "imas/backends/imas_core/uda_support.py: extract_idsdef"]}
{"id": "C65", "title": "The command imas convert", "statement": "When imas convert ends without an error, the output entry holds for every IDS and occurrence that was asked for (a given one or all that are filled; a given IDS or all that the target Data Dictionary defines) exactly what the input holds: unchanged if it has the target version already, and otherwise converted, with the input noted as its origin unless this was switched off; and it holds nothing else. It succeeds if and only if the target version is known (or a file), the entries can be opened and closed, and everything asked for can be read, converted and put. When it fails, the output holds only converted occurrences that were asked for, complete except for at most one. An unknown target version is refused before anything is opened; no output is created if the input cannot be opened; the input is only read; and entries are closed whatever happens. (IDSs of the input that the target does not define are silently left out, and IDSs that the default Data Dictionary does not define cannot be converted.)", "quantifier": "all contents of the input, all Data Dictionaries, all arguments, all failures of the data entries", "why_tests_cant": "All contents of data entries, all dictionaries and all places at which a step can fail.", "anchors": ["imas/command/cli.py: convert_ids", "imas/db_entry.py: DBEntry.get"]}
{"id": "C66", "title": "Validation of netCDF files", "statement": "imas validate_nc and validate_netcdf_file accept a file with the name of a netCDF file and a known Data Dictionary version if and only if its groups are exactly groups of IDSs with occurrences in them, nothing else is in between, and every group of an occurrence is valid: it has a valid homogeneous_time and its variables adhere to the conventions. Everything else that is wrong is reported as an InvalidNetCDFEntry. Files that the library has written are accepted, and every listed occurrence of an accepted file can be read, if the sizes of arrays of structures are within their dimensions. (Groups with unusual numbers as names, such as 01, are not checked; sizes in shape variables are not checked; and IMAS_DISABLE_NC_VALIDATE switches the check of variables off.)", "quantifier": "all contents of netCDF files, all Data Dictionaries", "why_tests_cant": "All contents of files: any number of groups, variables and dimensions; tests have a handful of damaged files.", "anchors": ["imas/backends/netcdf/nc_validate.py: validate_netcdf_file", "imas/backends/netcdf/nc2ids.py: NC2IDS.validate_variables", "imas/backends/netcdf/db_entry_nc.py: NCDBEntryImpl"]}
{"id": "C67", "title": "netCDF files of another Data Dictionary version", "statement": "Reading an IDS from a netCDF file of an older or newer Data Dictionary version gives exactly the values and numbers of elements of the nodes that the two dictionaries identify, also of renamed nodes and of nodes in renamed structures, at the same element indices; nodes that only the version in memory has, and nodes whose type changed, are not set; and the read succeeds. This holds if every structure around stored data is in both versions with the same type. (If something is stored in a structure that the version in memory does not have, the whole IDS cannot be read: an AttributeError is raised.)", "quantifier": "all pairs of Data Dictionaries with renamed, moved, added and removed nodes and changed types (no node moved out of an array of structures), all IDS contents", "why_tests_cant": "All pairs of versions and all contents; tests convert a few nodes.", "anchors": ["imas/backends/netcdf/db_entry_nc.py: NCDBEntryImpl.get", "imas/backends/netcdf/nc2ids.py: NC2IDS.run", "imas/ids_convert.py: DDVersionMap"]}
{"id": "C68", "title": "Analysis of databases", "statement": "imas analyze-db either appends to the output file what it found about every folder, or fails and leaves the file as it was; it fails exactly if h5py is missing, the output file is unreadable or a file in a folder cannot be read. For every file of the HDF5 backend it records the IDS, the occurrence and the paths of the filled data nodes. The CSV file of imas process-db-analysis has one row for each IDS that is used and one for each path that is filled (error bars only mark the path that they belong to), in sorted order, with exactly these shares: data entries that have the IDS among all, data entries that fill the path among those with the IDS, and occurrences that fill the path among all occurrences of the IDS. All shares are positive and at most 1, and nothing is divided by zero. The table lists the IDSs of the Data Dictionary in the order of their fraction of filled data nodes, and the tree of an IDS shows exactly the data nodes that are filled somewhere, and the numbers of data nodes in structures. (Folders without master.h5 are not skipped, although the code intends it; names of IDSs with a digit after an underscore are taken apart.)", "quantifier": "all folders, files and datasets, any number of analyses, all Data Dictionaries", "why_tests_cant": "All contents of databases: any number of data entries, occurrences and paths; there are no tests of the counting.", "anchors": ["imas/command/db_analysis.py: analyze_db, analyze_folder, ids_info, process_db_analysis, _write_usage_stats_to_csv, _AnalysisNode"]}
{"id": "C69", "title": "Editing lists of strings", "statement": "A data node of strings holds strings and nothing else after any sequence of assignments, append, extend, assignments to items and slices, and pop. Assigning an iterable stores the texts of its items in order, any other object its own text as the only item; append adds one text at the end, also to an unset node; extend adds the texts of all items; assigning to an index or slice replaces exactly the items that Python's rules for lists name. Everything that fails leaves the list as it was, except extend, which keeps the items before the one that failed. (The forwarded method insert stores objects unconverted, which is proved as a limit.)", "quantifier": "all lists, all objects and their conversions, all indices and slices (with any start, stop and step), all sequences of edits", "why_tests_cant": "All objects Python can convert, all slices and all histories of edits.", "anchors": ["imas/ids_primitive.py: IDSString1D.append, extend, __setitem__, _cast_value, __getattr__; _cast_str"]}
{"id": "C70", "title": "Operators on data nodes", "statement": "An expression in which data nodes are operands has the value, or raises the exception, of the same expression with the values of the nodes in their places: for all operators of Python, nested to any depth, with nodes of any class on either side, and for functions of numpy with an array node and numbers, arrays or nodes as arguments. An augmented assignment such as ids.x += y leaves in an array node what numpy's in-place operation gives, touches no other array, and changes nothing if it fails. (Proved as limits: numpy functions refuse lists next to a node; a numpy array on the left of a node without dimensions sees an array in place of a number; text % node; in a lazy-loaded IDS += raises that it is read-only after it changed the array.)", "quantifier": "all expressions, all operators and operands, all behaviour of Python and numpy on ordinary values", "why_tests_cant": "All combinations of operators, types of operands and their order, nested to any depth; which method runs is decided by rules of Python and numpy.", "anchors": ["imas/ids_primitive.py: _binary_wrapper, _reflected_binary_wrapper, _unary_wrapper, IDSPrimitive, IDSNumericArray.__array_ufunc__"]}
{"id": "C71", "title": "Printed views", "statement": "imas.util.print_tree of a structure or array of structures shows one line for each node below it, in document order and at the depth of the node: with hide_empty_nodes those that have a value (and all elements of arrays of structures), otherwise all; data nodes with their value, arrays of structures by their elements or, without elements, by an empty pair of brackets. Every value in the structure is shown at its place and no other. print_metadata_tree shows each entry of the Data Dictionary down to maxdepth levels once (all with 0, at least one level) and marks structures whose children it leaves out. inspect lists every child (with hide_empty_nodes every child with a value) once, sorted by name. idsdiff prints that two structures are identical if and only if they compare equal, and otherwise one row for each difference with the complete texts of both sides, where everything that is not highlighted is the same on both sides.", "quantifier": "all IDS contents, all Data Dictionaries, all depths, all pairs of structures", "why_tests_cant": "All trees and all depths; tests only check that printing does not fail.", "anchors": ["imas/_util.py: print_tree_impl, _make_tree, print_metadata_tree_impl, inspect_impl, idsdiff_impl", "imas/util.py: print_tree, print_metadata_tree, inspect, idsdiff"]}
{"id": "C72", "title": "Calls of the compiled library", "statement": "Without the compiled library (imas_core), every call of it raises the RuntimeError that says so, and nothing happens. With it, a function that the library has is called once, with the same arguments, and its result and exceptions reach the caller; calling a function that it does not have raises an error that names the version that introduced it and the version in use (5.0.0 for libraries that cannot tell). An operation on a context (global, slice and array of structures actions, reading, writing, deleting, listing occurrences) gives a value exactly if the library reports success for it; any other status is an error that names the operation and the status. The remembered position in an array of structures changes exactly if the library reports success. Commands that need a version go on exactly if the library has at least this version. (Proved as limits: a failed write raises a TypeError that hides the status; the status at the end of an action is ignored.)", "quantifier": "all libraries (any set of functions, any behaviour and state), all versions, all arguments", "why_tests_cant": "All libraries of all versions; tests run with one installed version.", "anchors": ["imas/backends/imas_core/imas_interface.py: LowlevelInterface", "imas/backends/imas_core/al_context.py: ALContext, ALArrayStructContext", "imas/backends/imas_core/db_entry_al.py: ALDBEntryImpl.list_all_occurrences", "imas/command/helpers.py: min_version_guard"]}
{"id": "C73", "title": "Names and identifiers in DD3 and DD4", "statement": "When an IDS is converted from DD3 to DD4, the name of a structure that had a name and an identifier (and no index) and has a name and a description in DD4 is found as its description, and the identifier as its name; everything else is found where the two dictionaries place it. Converting from DD4 to DD3 moves them back, and converting there and back keeps them. Arrays of structures keep their sizes. Nothing else appears in the result, except the provenance made of ids_properties/source. If every value can be assigned to the node it belongs to and no conversion function fails, the conversion does not fail. (Proved as a limit: if DD3 already has a description there, the name or the description is lost.)", "quantifier": "all pairs of dictionaries of DD3 (before 3.42) and DD4 whose renames are one-to-one, all IDS contents, all conversion functions of changed types", "why_tests_cant": "All structures with a name and an identifier, at any depth, and all contents; tests convert a few coils.", "anchors": ["imas/ids_convert.py: _DDVersionMap._apply_3to4_conversion, _add_rename, convert_ids, _copy_structure"]}
{"id": "C74", "title": "Signs in DD3 and DD4", "statement": "When an IDS is converted from DD3 to DD4, the value of a data node whose sign convention changed (labelled psi_like or dodpsi_like in the DD3 dictionary, or listed for this IDS) is the negative of the old value, at the place the dictionaries give it, also if the node or a structure around it was renamed; every other value is unchanged. Converting from DD4 to DD3 changes the sign of exactly the same nodes, and converting there and back restores every value. If every value fits the node it belongs to and no conversion function fails, the conversion does not fail. (Proved as a limit: if a listed name is only a DD4 name of a renamed node, its sign is changed in one direction only.)", "quantifier": "all pairs of dictionaries of DD3 (before 3.42) and DD4 whose renames are one-to-one, all labels and lists of paths of data nodes, all IDS contents, all numbers of dimensions", "why_tests_cant": "All labelled nodes of all IDSs in every combination with renames, and all values; tests check a few nodes.", "anchors": ["imas/ids_convert.py: _DDVersionMap._apply_3to4_conversion, _3to4_sign_flip_paths, _cocos_change, convert_ids, _copy_structure"]}
{"id": "C75", "title": "Builtin functions on data nodes", "statement": "int, float, complex, bool, round, math.floor, math.ceil, math.trunc, operator.index, str, format without specification, the attributes real, imag, conjugate, numerator and denominator, and np.asarray give the same result or exception for a scalar data node of numbers as for its value; so do bool and str for texts, bool for lists of texts, and np.asarray with a given element type for arrays. Whatever their value, data nodes are unhashable, cannot be formatted with a specification or be the base of a three-argument pow, and text and array nodes are not converted to numbers; str of an array node or a list of texts is its repr. (Proved as limits: np.asarray without an element type makes floats of integer and complex array nodes and so loses imaginary parts; an array node is true whenever it has a length, whatever its elements are; imag of a float node is the integer 0; an unset integer is true.)", "quantifier": "all classes of data nodes, all values, all builtin functions listed and all their arguments, all behaviours of Python on ordinary values that obey its basic rules for numbers", "why_tests_cant": "Every function for every class and value, through the inheritance from the numbers module; the tests convert a few scalars and no array to numpy.", "anchors": ["imas/ids_primitive.py: IDSPrimitive, IDSString0D, IDSNumeric0D, IDSComplex0D, IDSFloat0D, IDSInt0D, IDSNumericArray.__array__"]}
{"id": "C76", "title": "Iteration with indices", "statement": "indexed_tree_iter(ids, metadata) yields every node of the IDS with the path of the metadata exactly once, set or not, together with the indices of the arrays of structures around it, sorted by these indices, and raises no exception. indexed_tree_iter(ids) yields every data node, structure and array of structures with a value exactly once with these indices, in document order.", "quantifier": "all Data Dictionary trees and all entries of them at any depth, all IDS contents with any nesting and any sizes of arrays of structures", "why_tests_cant": "All nestings of structures and arrays of structures and all sizes; tests iterate over a few IDSs with one or two levels.", "anchors": ["imas/backends/netcdf/iterators.py: indexed_tree_iter, _split_on_aos, _tree_iter, _full_tree_iter"]}
{"id": "C77", "title": "Nodes know where they are", "statement": "After any program that creates, lazily opens, reads, changes, resizes, appends to and deep-copies IDSs without putting a node at two places, every node of an IDS reports the node that holds it as its parent (get_parent), the IDS as its toplevel (get_toplevel), the homogeneous_time of this IDS as its time mode (get_time_mode) and the factory of this IDS for its version (get_data_dictionary_version); its path (get_full_path) names a place of the IDS where the node is; and it is in no other IDS. (Proved as limits: aos[i] = structure does not make the array the parent, so that a structure of another IDS reports the other IDS; an element that was removed still reports the array as its parent and [?] as its index.)", "quantifier": "all Data Dictionary trees, all programs of any length with the listed operations, all values, all behaviours of the backend for lazy loading, all nodes at any depth", "why_tests_cant": "All sequences of operations and all nodes; tests ask a few nodes of one new IDS.", "anchors": ["imas/util.py: get_parent, get_toplevel, get_time_mode, get_full_path, get_data_dictionary_version", "imas/ids_base.py: IDSBase._path, IDSBase._toplevel, IDSBase._time_mode, IDSBase._version", "imas/ids_structure.py: IDSStructure.__setattr__, __deepcopy__", "imas/ids_struct_array.py: IDSStructArray.__setitem__, append, resize"]}
{"id": "C78", "title": "Paths lead to objects", "statement": "After any program as in C77, ids[get_full_path(node)] is the node itself (the same object) for every node of an IDS except the IDS, and looking it up creates and loads nothing, also in a lazy-loaded IDS. IDSPath.goto from the IDS, or from a node with from_root=False, has exactly the result, the exceptions and the side effects (children created, data loaded) of accessing the attributes and items one after the other; from any other node of the IDS it has those of going there from the IDS, if the items written for the shared leading names are those of the node. Negative items count from the end, and integers outside the array raise IndexError, also in lazy-loaded arrays. A path as an index stands for the integer stored there, counted from one. (Proved as limits: an index path whose value is zero leads to the last element instead of raising; after assigning an element of another IDS with aos[i] = structure, paths from this element lead to nodes of the other IDS.)", "quantifier": "all Data Dictionary trees with valid names, all programs of any length, all nodes at any depth, all paths of names and integer indices, all behaviours of the backend for lazy loading", "why_tests_cant": "All programs, nodes and paths, with object identity and the effects of lazy loading; tests look up a few paths of eager IDSs.", "anchors": ["imas/ids_path.py: IDSPath.goto", "imas/ids_structure.py: IDSStructure.__getitem__, _dd_parent", "imas/ids_base.py: IDSBase._path, _dd_parent", "imas/util.py: get_full_path"]}
{"id": "C79", "title": "Automatic and explicit conversion agree", "statement": "If an IDS of one Data Dictionary version is stored and read with another version, every value that get delivers with automatic conversion is also found at the same place after reading it without conversion and calling convert_ids, as assignment to the new node stores it (and post-processed, if there is a function for that), and every array of structures that get delivers has the same number of elements. Conversely every value after convert_ids is the one that get delivers, unless its node or one above it changed (another type or another way to store outlines) or is post-processed, the value counts as unset in the version it is read with, or is time-dependent there although the IDS is time-independent. The same holds between what put stores in a data entry of another version and the IDS converted with convert_ids first (then also time-dependent values of a time-independent IDS are not stored). Both when the stored version is the older and when it is the newer one.", "quantifier": "all pairs of dictionaries with one-to-one renames that stay in their structure and in which no renamed node changed its type, all IDS contents and time modes, all conversion functions", "why_tests_cant": "The two conversions are separate pieces of code that use different parts of the map; tests compare them on a few nodes.", "anchors": ["imas/db_entry.py: DBEntry._get, DBEntry._put", "imas/backends/imas_core/db_entry_helpers.py: get_children, put_children", "imas/ids_convert.py: convert_ids, _copy_structure, NBCPathMap, _DDVersionMap"]}
{"id": "C80", "title": "Metadata is read-only", "statement": "In a program with one thread, assigning or deleting an attribute of a metadata object raises RuntimeError and changes nothing, whatever calls of get_toplevel_metadata succeeded or failed before, and no metadata object ever changes after it was built. Metadata can be built at any time if its constructor itself raises nothing. If building metadata fails, nothing is cached and all metadata is read-only again. Metadata returned for an XML element has exactly the attributes that the constructor gives to the node of this element. Metadata of the same XML element is the same object as long as metadata of fewer than 256 other elements was asked for in between. (Proved as limits: with overlapping calls of get_toplevel_metadata in two threads, both may return normally and leave all metadata writable from then on, or one raises AttributeError.)", "quantifier": "all sequences of calls and attempts to change metadata of any length, all constructors (what they create, assign and raise), all cache sizes; two threads with all steps interleaved for the limits", "why_tests_cant": "All sequences of successful and failed calls; the tests try to change one attribute after one call.", "anchors": ["imas/ids_metadata.py: get_toplevel_metadata, IDSMetadata.__init__, IDSMetadata.__setattr__, IDSMetadata.__delattr__"]}
{"id": "C81", "title": "Table of timings", "statement": "The table of imas convert --timeit can always be made. It has one column for each first label (operation) and one row for each second label (IDS and occurrence) that was timed, in the order in which they were first timed. Each cell has the duration of the last section with its labels, or nothing if none was timed, and the footer of each column is the sum of the cells shown in it. Sections that raise an exception or have another number of labels count for nothing. A timer with another number of axes has no table.", "quantifier": "all sequences of timed sections of any length, with any labels and clock values, repeated labels, and sections that raise", "why_tests_cant": "All sequences with repeated, missing and failed sections; no test looks at the table.", "anchors": ["imas/command/timer.py: Timer.__call__, Timer.get_table", "imas/command/cli.py: convert_ids"]}
