# Formal model of IMAS-Python in Lean 4

The code in `/repo/imas` is modelled by small total Lean functions, one per Python
function, with exceptions as values. Properties are theorems about those functions. Each
definition cites the file and lines it models and says where it simplifies.

## Layout

* `properties.jsonl`: the properties in English. `MANIFEST.json`: the theorems for each one.
* `lean/Verif/Model/*.lean`: the models.
* `lean/Verif/Spec/*.lean`: specifications (grammars, predicates, abstract stores).
* `lean/Verif/Lemmas/*.lean`: helper lemmas, no claims.
* `lean/Verif/Props/*.lean`: the property theorems, named after the property ids, with
  examples that meet their hypotheses.
* `seeded/LOG.jsonl`: wrong programs tried against the theorems (see the last section).

Theorems that end in `_partial` prove less than the English claim; the manifest says what is
missing. Theorems with `limit` in their name (and a few others named after what they show)
prove that the code violates the unrestricted reading of a claim, or that a hypothesis of
another theorem cannot be dropped.

## Trusted base

1. Lean 4.33.0: its kernel. No theorem uses `native_decide`, `bv_decide` or `sorry`, and no
   axiom is declared. The theorems depend at most on `propext`, `Classical.choice` and
   `Quot.sound`. Mathlib is not imported.
2. The correspondence between the models and the code. The models are written by hand from
   the source, which is not executed here. Every definition cites the lines it follows.
3. The assumptions about external code, which is not part of the repository:

| external code | in the model |
|---|---|
| Access Layer low level (`imas_core`) | for C37, C39, C51, C52, C54: any state machine that may fail at any call. For C36, C38, C49, C59, C60: a store of values per context and path (`Model/AlStore.lean`). `end_action` does not raise |
| netCDF4 | groups are dimensions, variables and attributes; unwritten slots hold the fill value; variable names are distinct; dimensions of variables exist; `dataset[path]` raises a `KeyError` if a group on the way is missing and an `IndexError` if the last one is |
| numpy | arrays are a shape and a value per index. Casts between types are parameters that give a value of the promised type. Floating point operations are a parameter (`FloatModel`), rational numbers for times in C27 |
| scipy `interp1d` | a parameter that works line by line along one axis |
| xarray | the arguments of `Dataset(...)` are modelled, not the constructor |
| xxhash | an arbitrary digest function; collisions are an explicit alternative in C13 |
| file system, processes | atomic steps in any interleaving (C44); writes that stop after any number of bytes (C45); a temporary file (C43) |
| `imas_data_dictionaries`, XML parser | a list of versions and parsed trees of elements |
| CPython | `RecursionError` is an explicit outcome where recursion depends on input (C01, C02, C11). Reference counting is an oracle where it decides behaviour (C38, C39). `int()` accepts ASCII texts with at most 4300 digits (`Spec/PyInt.lean`); other white space and digits of Unicode are not modelled |

4. The specifications. They are meant to be read; the most important ones are listed with
   the modules below.

## What is modelled

| model | code | claims |
|---|---|---|
| `Path`, `PathCache` | `ids_path.py` 20-151, 226-254 | C01-C04 |
| `Goto` | `ids_path.py` 170-224, `ids_base.py` 55-93 | C05, C06 |
| `Tree` | `ids_structure.py`, `ids_struct_array.py`, storage part of `ids_primitive.py`; `util.py` 24-133 | C07, C08 |
| `Primitive`, `Update` | `ids_primitive.py` 88-350, 479-490, `ids_data_type.py`, `ids_struct_array.py` 131-207 | C09, C10, C14 |
| `Heap` | object identity in `ids_structure.py`, `ids_struct_array.py`, `ids_primitive.py`, `ids_toplevel.py`; `copy.deepcopy` | C11, C15, C62 |
| `Diff`, `Hash` | `util.py` 151-246, 345-407 and the `_xxhash` methods | C12, C13 |
| `Identifier` | `ids_identifiers.py`, `ids_structure.py` 70-96 | C16 |
| `Coordinate`, `Validate` | `ids_coordinates.py`, `ids_toplevel.py` 216-290, `_validate` methods | C17-C20 |
| `VersionMap` | `ids_convert.py` 35-109, 128-524 | C21, C56 |
| `VersionNbc` | `ids_convert.py` 54-109, 487-506, `ids_metadata.py` 149-155, 182-206 | C57 |
| `Convert`, `TypeChange`, `Contour` | `ids_convert.py` 671-755, 870-1156 | C22-C26 |
| `ConvertVersion` | `ids_convert.py` 79-86, 387-394, 424-462, 591-594: conversion with the map from the dictionaries, rules for DD3 to DD4 | C58, C73 |
| `ConvertCocos` | `ids_convert.py` 361-372, 527-629, 758-845: conversion between DD3 and DD4 with the changes of signs | C74 |
| `Numbers` | `ids_primitive.py` 132-137, 160-169, 193-222, 229-233, 271-283, 331-425, 430-441: data nodes in builtin functions and `np.asarray` | C75 |
| `Iterate` | `iterators.py` (netCDF) 11-98: `indexed_tree_iter` with the splitting of paths at arrays of structures | C76 |
| `HeapNode` | `util.py` 410-524, `ids_base.py` 37-114, `ids_toplevel.py` 64, 92-95, 368-372: what a node tells about its place | C77 |
| `HeapGoto` | `ids_path.py` 170-224, `ids_base.py` 42-53, `ids_structure.py` 179-183, 275-284: `IDSPath.goto` and `structure[path]` on objects | C78 |
| `ContourTree` | `ids_convert.py` 1254-1318 | C55 |
| `Pulse` | `ids_convert.py` 1175-1251, 709-755 with callback | C27 |
| `Provenance` | `ids_convert.py` 617-668, 1159-1172 | C28 |
| `NcMeta` | `nc_metadata.py` | C29 |
| `NcArr`, `NcWrite`, `NcRead` | `ids_tensorizer.py`, `ids2nc.py`, `nc2ids.py`, `iterators.py` | C30-C33 |
| `NcStore` | `db_entry_nc.py` | C34 |
| `NcFile` | `nc_validate.py`, opening and reading files in `db_entry_nc.py` 60-129 without conversion | C66 |
| `NcVersion` | choice of the map between versions in `db_entry_nc.py` 114-133 | C67 |
| `Xarray` | `_to_xarray.py`, `ids_tensorizer.py` for selected paths | C35 |
| `Al`, `AlLazy`, `AlStore` | `al_context.py`, `db_entry_helpers.py`, `db_entry_al.py` 160-347 | C36-C39, C49, C51, C52, C54, C59, C60 |
| `Entry` | `db_entry.py` 99-802 | C40-C42, C53 |
| `Open` | `db_entry.py` 37-48, 99-198, 227-303, `db_entry_al.py` 45-158, `uda_support.py` 31-56; `urllib.parse.urlparse` as far as used | C63, C64 |
| `Command` | `command/cli.py` 113-217, `command/helpers.py` 33-47, `db_entry.py` 552-627 without automatic conversion | C65 |
| `Usage` | `command/db_analysis.py` | C68 |
| `Strings` | `ids_primitive.py` `IDSString1D` (in-place edits), CPython's slice assignment | C69 |
| `Operators` | `ids_primitive.py` 25-54, 193-222, 431-461: which operations run for operators and ufuncs with data nodes | C70 |
| `Print` | `_util.py` 90-260 | C71 |
| `LowLevel` | `imas_interface.py` 41-180, `al_context.py` 48-218, `db_entry_al.py` 349-358, `command/helpers.py` 32-45 | C72 |
| `Serialize` | `ids_toplevel.py` 102-214 | C43 |
| `ModelCache` | `mdsplus_model.py` 77-199, `uda_support.py` 31-56 | C44, C45 |
| `Version` | `dd_zip.py` 38-109, `ids_factory.py` 33-103 | C46 |
| `Metadata` | `ids_metadata.py`, `util.py` 314-342 | C47, C50, C61 |
| `Resample` | `_util.py` 37-87, `ids_coordinates.py` 269-279 | C48 |
| `MetaGuard` | `ids_metadata.py` 60-77, 134-258 (as a script), 263-273: `__setattr__` as an attribute of the class, the cache, interleaved calls | C80 |
| `Timer` | `command/timer.py`: the table of `imas convert --timeit` | C81 |

## How things are represented

* A Python `str` is `List Char` where its text matters (paths, coordinate specifications,
  versions), and a name otherwise.
* Python ints are `Int`, sizes and indices `Nat` where Python guarantees it.
* IDS metadata is a tree of named children. IDS contents are a tree over the same names, with
  children that were never accessed as `absent` fields. Nodes of this tree are values; object
  identity and sharing are modelled separately in `Heap`, which is where aliasing, deep copies and
  lazily loaded nodes are objects with references.
* Dictionaries are association lists in insertion order, or functions where the order is never used.
* Exceptions are values. State that is left behind by an exception is part of the result
  wherever a claim is about it (C34, C39, C40, C43-C45, C48, C52).
* External calls go to an oracle, whose answers may depend on all earlier calls.

## What is not modelled

* Log messages, warnings, how values are formatted and drawn when they are printed (C71 is about which lines are printed), the command line (`imas/command`, except `imas convert`, `imas analyze-db`, `imas process-db-analysis` and what `imas validate_nc` checks), `imas.training`, documentation tooling.
* `mdsplus_model.py` `create_model_ids_xml` and
  the call of the MDSplus tools, `uda_support.py` beyond the cached file, the import of the compiled library and `ALContext.timerange_action`.
* What operators and numpy functions do with ordinary values (parameters in C70 and C75).
* `ids_convert.py`: messages, the special case for the structure `flux_loop/flux`. Nodes that moved to another
  structure (previous names with `/`) are covered by C21, C57 and C67 (the latter two: not out of an array of structures), and by C58 if they moved out of
  structures that the newer version does not have any more and whose names it does not use again.
* `dd_helpers.py` and the build of Data Dictionary archives.
* Names that are both children and Python attributes of the node classes.

## Specifications worth reading

* `Spec/Path.lean`: grammar of path texts (C01, C02).
* `Spec/Tree.lean`, `Spec/Validate.lean`: filled nodes, valid IDSs (C07, C08, C18-C20). Validation is a function of
  the tree; that what it reads leaves no trace in later results is `C19_reads`.
* `Spec/DiffReport.lean`: which differences of two structures are to be reported, in terms of the nodes found at each
  address (C12_reported_*).
* `Spec/HashTrace.lean`: a digest that records everything it is fed, from which the inputs in C13's collision
  clause are read off (`C13_digested`).
* `Spec/Heap.lean`, `Spec/HeapLazy.lean`: what can be seen through a reference, what a lazily
  loaded IDS may show (C11, C15).
* `Spec/HeapPlace.lean`: places of nodes, IDSs in which no node is at two places (C62).
* `Spec/VersionMap.lean`, `Spec/VersionNbc.lean`: which fields of two Data Dictionary versions are the same (C21, C57).
* `Spec/ConvertVersion.lean`: where the nodes of an IDS are found in another version (C58).
* `Spec/ConvertNames.lean`: the same between DD3 and DD4: which structures are described by names, what their fields mean (C73).
* `Spec/ConvertCocos.lean`: which nodes have another sign in DD4 than in DD3 (C74).
* `Spec/Timer.lean`: order of labels and last durations (C81).
* `Spec/Numbers.lean`: the rules of Python for ordinary numbers, texts and arrays that are used, and for which functions a data node works like its value (C75).
* `Spec/Iterate.lean`: names and indices of an address, and lists of nodes by their addresses (C76).
* `Spec/HeapNode.lean`: programs that put nodes at one place only (C77, C78). Places of nodes are in `Spec/HeapPlace.lean`.
* C79 has no model or specification of its own: it compares what C57 (`get` with the map) and C58 (`convert_ids`) say about the same stored data.
* `Spec/Entry.lean`: what an operation on a data entry tells the backend, and that its errors reach the user (C40).
* `Spec/Open.lean`: what the arguments of a data entry mean, and how a backend is prepared (C63, C64).
* `Spec/Command.lean`: what `imas convert` should do (C65).
* `Spec/Usage.lean`: files of the HDF5 backend, shares and numbers in analyses of databases (C68).
* `Spec/Strings.lean`: texts of objects, items of iterables, places of a slice (C69).
* `Spec/LowLevel.lean`: which functions of the library exist since when, what operations ask the library (C72).
* `Spec/Print.lean`: the lines for nodes and entries, the guarantees of `get_matching_blocks` (C71).
* `Spec/Operators.lean`: expressions with values in place of data nodes (C70).
* `Spec/NcFile.lean`, `Spec/NcReadable.lean`: netCDF files that adhere to the conventions, and sizes that fit (C66).
* `Spec/NcVersion.lean`: stored data around which everything is in both versions (C67).
* `Spec/NcMeta.lean`, `Spec/NcValid.lean` and related: dimensions, coordinates and valid groups (C29-C33).
* `Spec/AlStack.lean`, `Spec/AlTime.lean` and related: stack discipline of contexts, paths and time
  bases of low-level calls (C39, C54).
* `Spec/AlAppend.lean`: low levels that append slices, and what is stored afterwards (C37).
* `Spec/PyInt.lean`: texts that Python's `int` accepts (C17, C66).
* `Spec/AlView.lean`: what get, get_slice and get_sample ask the backend for (C59).
* `Spec/MetaTree.lean`: time dependence, units, context paths and time bases at a place in the Data Dictionary (C61).

## Findings

Behaviour of the code that a user may not expect, found while stating and proving the
properties. Where a theorem shows it, it is named.

Equality and hashes
* `==` ignores arrays of structures with empty elements inside a structure that has no other content when the
  other side lacks this structure (`C12_empty_elements_ignored`), and is not transitive (`C12_not_transitive`).
* `-0.0 == 0.0` and strings that differ in trailing NULs are equal, with different hashes.
* `calc_hash` omits `version_put`, but `ids_properties` filled with nothing else is hashed
  (`C13_only_version_put_counts`). Names of children are not length-prefixed in the hashed text. Integers outside 32
  bits raise `OverflowError`.

Paths
* The parser accepts `a(1)b`, a leading `/` and an empty index `a[]`. Fortran-style `(0)` is index -1.
* `goto` ignores indices written on names shared with the start element (`C05_prefix_index_ignored`).
* `int()` of more than 4300 digits raises `ValueError` with another message.

In-memory IDSs
* Lazy-loaded IDSs are not read only in three cases: replacing a whole structure by attribute
  (`C15_replace_limit`), writing in place to an array that was read (`C15_inplace_limit`), and appending one of its
  nodes elsewhere, which changes its `_parent` (`C15_moved_limit`). `ids.x += 1` raises the exception that the IDS is read-only
  after it changed the array (`C70_lazy_limit`).
* Operators: numpy functions refuse lists next to a data node, which operators accept; a numpy array on the left of a 0D node sees a 0D
  array in place of a number, which can change the type of the result (`C70_limits`).
* `append` and `__setitem__` of arrays of structures check nothing. Assigning an array shares it. Assigning a
  structure moves it: its `_parent` changes.
* `structure["aos[0]"] = x` fails.
* A deep copy of a node inside an IDS keeps the parent of the original (`C11_inner_parent_limit`). Deep copies of a lazy
  array of structures with loaded size 0 have no value list.
* Identifiers with equal values are merged (`C16_equal_values_merge`).
* After a failing lazy load, a second access to the same child silently gives an unset node
  (`C38_closed_limit`): the child is stored before it is loaded.

Coordinates and validation
* A coordinate of size 0 (`1...0`) is never checked. Of `1...2 OR 1...3` only the last size counts.
* Coordinates that are 0D, and `same_as` targets with fewer dimensions, raise errors other than
  `ValidationError`.

Conversion between Data Dictionary versions
* `startswith(old_path)` at line 283 also matches siblings whose names start with the renamed name
  (`C21_prefix_limit`).
* Reused and split names break the correspondence (`C21_reuse_limit`, `C21_split_limit`, `C21_name_rule_limit`).
* `ids_convert.py` lines 424-462: if a structure of DD3 has a name, an identifier and a description, the rule for names sends both the name and
  the description to the description of DD4, and one of them is lost without a warning (`C73_description_limit`).
* `_apply_3to4_conversion` (lines 369-372): a listed path that DD3 does not have, but that is the DD4 name of a renamed node, is not
  negated from DD3 to DD4 and is negated from DD4 to DD3, so that a value converted there and back has the wrong sign
  (`C74_listed_limit`).
* `IDSNumericArray.__array__` (lines 440-441) calls `astype(None)`, which means float64: `np.asarray(node)` of an integer array gives
  floats, and of a complex array only the real parts. `bool(node)` of an array node is the test of its length, nodes cannot be hashed
  or formatted with a specification, and `pow(node, e, m)` is a TypeError (`C75_limits`).
* Types of children of renamed structures are not checked (`C21_child_limit`); if one of them changed, conversion
  raises an error (`C58_inner_limit`).
* A node with both another name and another type is in both maps, so that get and put transfer it with the
  wrong type (`C49_renamed_type_change_limit`). Nodes that move into an array of structures are not found
  (`C49_moved_into_array_limit`, `C22_leaving_array_limit`).
* `dd_version_map_from_factories` raises `TypeError` for equal versions.
* `_get` uses the map of the entry version also if the destination has another version
  (`C41_destination_limits`). `get(autoconvert=False)` of data stored in an unreleased version raises
  `UnknownDDVersion`.
* Outlines: unset `closed` counts as closed, outlines with one point lose it, NaN in the first point breaks the round
  trip (`C25_limits`). Circuit matrices that are not well-formed are converted anyway
  (`C26_ill_formed_converted`).
* Values that a 0D node cannot hold are lost in type changes (`C23_default_item_limit`, `C23_empty_int_limit`,
  `C24_empty_limit`).
* An obsolete node of DD 3.42 and its replacement are converted to the same DD4 node: if both are filled, one value is
  lost without a message (`C56_two_sources_limit`, `C56_overwritten_limit`).
* A secondary separatrix is dropped if the first one has no flux (`C55_secondary_limit`).
* Pulse schedules: the callback overwrites post-processed values (`C27_post_limit`).
* Renamed nodes in dynamic arrays of structures are read and written with a time base, unlike all other nodes there
  (`C57_time_base_limit`: `_get_tbp` and `IDSMetadata` disagree).

Resampling
* A dynamic node without time dimension fails, and leaves an IDS half resampled in place (`C48_slices_limit`).

netCDF
* Complex 0D values that are not all set are not read back (`C30_complex_limit`). Values equal to the fill value are unset
  (`C30_fill_value_limit`).
* A renamed array of structures that is not sparse cannot be read lazily (`C32_renamed_array_limit`).
* A sparse variable without its `:shape` variable raises `AttributeError` (`C33_missing_shape_limit`).
* Error bars of structures are written with names the reader rejects (`C33_error_names_limit`); no Data Dictionary has
  them.
* A put that fails midway blocks the occurrence (`C34_failed_put_blocks`).
* `get` of a missing occurrence raises an `IndexError` instead of a `DataEntryException` if another occurrence of the IDS
  exists (`C34_get_missing_occurrence`): only `KeyError` is caught, and netCDF4 raises this one for missing groups on the
  way only. (netCDF4 is not available here; this is from its documentation and source as we know them.)
* `validate_netcdf_file` checks `magnetics/1` in place of `magnetics/01`, so that contents with unusual numbers as names
  are accepted unseen (`C66_unusual_names_limit`) or raise an `IndexError` (`C66_index_limit`). It does not check the numbers
  of elements in `:shape` variables; accepted files can fail while reading (`C66_sizes_limit`). The environment variable
  `IMAS_DISABLE_NC_VALIDATE`, meant for reading, also switches it off (`C66_switched_off_limit`).
* C67: an IDS in a netCDF file with something in a structure that the version in memory does not have cannot be read at all
  (`C67_removed_limit`). `_map_missing` maps only the topmost missing path to nothing, which is enough for the Access Layer, where
  nothing inside is visited; `NC2IDS.run` looks at the path of each variable, does not find it in the map, and reads it to the same
  path. The same happens in structures with another type. Reading lazily is not affected.
* `to_xarray` of a path with a coordinate inside another array of structures raises `KeyError`
  (`C35_array_limit`).
* Two nested arrays of structures with the same inner coordinate share a dimension name.

Data entries
* `delete_data` of the Access Layer backend always raises `TypeError`: `delete_children` gets one
  argument too many (`C52_delete`).
* `put` changes `version_put` and `homogeneous_time` of the IDS even if the backend refuses it.
* If the backend's `close` raises, the entry stays open (C40).
* `DBEntry(uri, mode, xml_path=pathlib.Path(...))` raises a `TypeError` for the UDA backend, since the path is put into
  an environment variable as it is (`C64_path_limit`).
* A backend number and a database name alone, `DBEntry(13, "test")`, are taken for a URI and a mode (C63).
* `imas convert` goes through the IDSs of the *target* dictionary: IDSs of the input that it does not define are left out
  without any message (`C65_left_out_limit`). It reads the input with the *default* dictionary, and fails with an `IDSNameError` for
  IDSs which that one does not define, even if the stored and the target dictionary do (`C65_default_dictionary_limit`).
* `imas analyze-db` tests `not (entry / "master.h5").exists` without calling the method: folders without `master.h5` are not
  skipped (`C68_master_limit`). A name of an IDS with a digit after an underscore would be taken for an occurrence
  (`C68_name_limit`); the Data Dictionary has no such names.
* `extend` of a data node of strings leaves the items before the one that cannot be converted (`C69_extend`), while a failing
  assignment to a slice changes nothing; `insert` is the method of the list and stores any object (`C69_insert_limit`).
* `ids_struct_array.py` lines 131-140: `aos[i] = structure` does not set `_parent`, unlike `append` (line 172). A structure taken from
  another IDS then reports that IDS as its toplevel and its old path, so `homogeneous_time` and coordinates are looked up in the wrong
  IDS (`C77_item_limit`, `C78_item_limit`). Removed elements keep their parent (`C77_removed_limit`).
* The value of an index path, as in `array(path)`, counts from one, and `IDSPath.goto` subtracts one without a check, so a stored value of zero
  leads to the last element instead of raising an exception (`C78_zero_limit`).
* `al_context.py` line 166 raises `LowlevelError` without its status argument, that is a `TypeError` (`C72_write_limit`). Lines 61 and
  179 ignore the status of `end_action` (`C72_end_limit`).
* `imas_interface.py` lines 107-131: the message "... is not implemented" names the module instead of the function.
  `timerange_action` checks no status.
* `serialize` with the ASCII protocol leaves its temporary file if putting or closing fails
  (`C43_failed_put_leaves_file`).

Caches
* A failing MDSplus build removes a finished model of another process (`C44_failed_build_removes_model`), a race can
  raise (`C44_race_raises`), and a directory with a partial model is never replaced (example beside
  `C44_alone`).
* `extract_idsdef` accepts a truncated file (`C45_truncated_file_accepted`).
* A definition file that changes is not loaded again (`C46_changed_file_not_reloaded`).
* `get_toplevel_metadata` replaces a method of the class while it builds metadata. If calls overlap in two threads, metadata
  may stay writable (`C80_thread_limit`), or one call raises `AttributeError` (`C80_overlap_limit`).

## Wrong programs

`seeded/LOG.jsonl` has one line per attempt: the definition edited in a scratch copy, the edit, the
claim that is false for the edited program, the declarations that stopped compiling, the property
theorems lost because they depend on them, and the theorems that were tightened because the first
attempt went unnoticed. Edits that go unnoticed lead to a stronger theorem or a new claim; they are
logged when the tightened theorem catches them.
