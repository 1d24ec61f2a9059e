# Formal model of xdvdfs in Lean 4

## 1. Trusted base

* Lean 4.33.0's kernel, and the three standard axioms `propext`, `Classical.choice`, `Quot.sound`
  (section 6 lists which theorem uses which). No axioms are added, there is no `sorry` or `admit`,
  no `native_decide`, no `bv_decide`. Mathlib is not used.
* The faithfulness of the model (`lean/Verif/Model/*.lean`) to the Rust sources. Each definition
  cites file and lines, and says where it simplifies. Nothing was executed: the model was written by
  reading the code.
* The specification files (`lean/Verif/Spec/*.lean`), which say what the words of the properties mean.
  They are small and do not mention the loops of the model. Some of them use data types of the model
  (a directory entry, a region, a listing) and its elementary decoders (`readDirent`).
* Assumptions about libraries outside the repository, listed in section 3.

Layout: `Model` is the code, `Spec` the vocabulary of the properties, `Proof` helper lemmas, `Props`
the property theorems, named after the property they prove, each followed by an `example` showing that
a concrete case meets its hypotheses.

## 2. Modelling conventions

* `Res α` has four outcomes: `ok a`, `err e` (Rust `Err`), `panic` (any `unwrap`/`expect`/`assert!`/
  `unreachable!`/index out of bounds/arithmetic overflow) and `hang` (loop fuel exhausted).
  Arithmetic overflow is modelled as in a checked (debug) build: it is a `panic`, and the theorems
  show either that it cannot happen or where it can. Where release builds matter (`info`, `tree`) the
  model takes a flag `checked`.
* Unbounded Rust loops take a `fuel : Nat` argument. Termination is stated as "for some `n`, for all
  `fuel ≥ n` the result is the same non-`hang` value"; divergence as "for all `fuel`, `hang`".
  A `fuel` never bounds a theorem: theorems either quantify over it or give an explicit sufficient amount.
* Bytes are `List UInt8`; on-disk integers are `UInt8/16/32/64`; offsets are `Nat` with explicit
  range checks; strings are `List Char` (Rust `str` is a sequence of Unicode scalar values), and byte
  lengths of strings use the UTF-8 length function.
* Block devices are modelled by a read function `offset → length → Res Bytes` (for readers,
  quantified over arbitrary devices, including ones whose reads fail) and by a state-passing write
  interface (for the packer). A file is a byte list plus the trace of writes; a fault oracle decides
  which operation fails and how much of it takes effect. Interruption at any moment is covered by
  ranging over all prefixes of the trace (packing) or over all states passed through (commands).
* The async/sync duality (`maybe_async`) is ignored: the code has no concurrency; each `.await` is a
  sequential call.
* `BTreeMap` is a sorted association list; `HashMap` is an association list with functional lookup.

## 3. What is modelled, what is not

Modelled, function by function:

| Code | Model |
|------|-------|
| `xdvdfs-core/src/layout.rs` | `Layout`, `Util`, `Read` (data accessors) |
| `xdvdfs-core/src/blockdev.rs` (slices, files, `OffsetWrapper`) | `BlockDev`, `Read`, `MemDev` (writing), `Partition` (writing and seeking in a partition) |
| `xdvdfs-core/src/util.rs` | `Util` |
| `xdvdfs-core/src/read.rs` | `Read`, `ScanIter` (the iterator, with failing reads) |
| `xdvdfs-core/src/checksum.rs` | `Checksum` (the bytes fed to the hash) |
| `xdvdfs-core/src/write/avl.rs` (arena tree, rebalancing, reordering, iterators) | `Avl` |
| `xdvdfs-core/src/write/dirtab.rs`, `sector.rs` | `Dirtab`, `Sector` |
| `xdvdfs-core/src/write/img.rs` | `Pack` |
| `xdvdfs-core/src/write/fs/mod.rs`: `PathVec` and the path prefix tree | `Path`, `Trie` |
| `xdvdfs-core/src/write/fs/sector_linear.rs` | `SectorLinear` |
| `xdvdfs-core/src/write/fs/xdvdfs.rs` | `ImgFs`, `IoCopy` (`std::io::copy` with failing reads) |
| `xdvdfs-core/src/write/fs/remap.rs` | `Remap` |
| `xdvdfs-core/src/write/fs/stdfs.rs` | `StdFs` (listing and copying from the host), `Unpack`, `Host` |
| `xdvdfs-cli` `cmd_unpack`, `cmd_md5`, `cmd_pack`, `exiso_compat`, `cmd_info`, `cmd_read`, `cmd_build_image`, `cmd_compress`, `img`, exit status of `main` | `Unpack`, `Checksum`, `Cli`, `Show`, `InfoText`, `BuildImage`, `BuildArgs`, `SpecCmd`, `CliPaths`, `Compress`, `ReadCli` |
| `xdvdfs-fsd` `img_fs.rs`, `main.rs`, `daemonize.rs` (Linux) | `Fuse`, `MountOpts`, `Daemon` |
| `BufWriter` around the output file | `BufWriter` |
| `xdvdfs-web/src/packing.rs`, `compress.rs`, `unpacking.rs` (pages of the graphical front ends) | `WebUi` |
| `xdvdfs-desktop/src/{pack,unpack,compress}.rs`, `xdvdfs-web/src/ops/tauri.rs` (desktop application) | `Desktop` |
| `xdvdfs-web/src/main.rs`, `xdvdfs-web/src/ops/tauri.js` (the pages in tabs, events of the window; it is assumed that the library keeps the panels of hidden tabs and that dialogs are modal) | `Tabs` |
| `xdvdfs-web/src/ops/browser.rs`, `xdvdfs-web/src/fs/*.rs` (browser version; the standard's file handles and streams are assumed to behave as documented) | `Browser` |

Assumed about what is outside the repository, and not modelled:

* The hash functions (SHA3-256, MD5) are arbitrary functions of the bytes fed to them.
* The `ciso` crate (LZ4, container format, split files): an encoder is any function from sectors to parts.
  Assumed where needed (`NumberedParts`, `CisoWorks`): the parts of `dir/stem.ext` are `dir/stem.1.cso`, `dir/stem.2.cso`, ...;
  opening the parts gives a device that reads like the encoded sectors; there is at least one part. Two such encoders are
  given in `Props/CompressArgs`. Parts are written whole; when they are created during encoding is left open.
* The `wax` glob engine: a rule's match is an arbitrary function from paths to captured texts.
* The host file system: a finite or infinite map from absolute Unix paths to files and directories,
  one process, no symbolic links, no permissions; refused and cut operations come from an oracle.
  Windows paths are not modelled.
* `fuser`: the reply buffer of `readdir` is an oracle that says when it is full, and a request that is
  dropped without a reply is answered with `EIO`. Times, permissions and the wire protocol are omitted.
* `std::io::BufWriter`: the semantics of its documentation (a write larger than the buffer goes
  straight through, dropping flushes and ignores errors); an oracle may flush earlier.
* The `toml` library: any functions `print` and `parse` with `parse (print s) = s`.
* `std::io::copy`: transfers the data in pieces of arbitrary positive sizes given by an oracle; in `IoCopy` it is the documented
  loop over reads that may fail.
* `clap` argument parsing, terminal output, the drawing of the pages of the front ends, the browser's file handles and streams (assumed as the standard describes them), async executors, memory
  exhaustion.

## 4. Properties: what is modelled and how it is proved

`proved`: the theorems state the whole property. `partial`: the property as stated is false of the
code (section 5), or only part of it is proved.

| Id | Property | Status | Model and proof | Theorems |
|----|----------|--------|-----------------|----------|
| C01 | Directory entry header codec round-trips | proved | `DiskNode` codec over byte lists; round-trip by unfolding little-endian codecs | `C01_header_roundtrip`, `C01_header_roundtrip_bytes`, `C01_header_layout` |
| C02 | Volume descriptor codec round-trips | proved | `VolDesc` codec; round-trip | `C02_volume_new_roundtrip`, `C02_volume_roundtrip_bytes`, `C02_volume_valid_iff` |
| C03 | File name encoding round-trips | proved | Windows-1252 table, `encodeName`, `nameStr`; table inverse lemma, induction on the name | `C03_decode_is_windows1252`, `C03_name_roundtrip`, `C03_name_encoding_fails_iff` |
| C04 | Name comparison is a case-insensitive total order | proved | `cmpIgnoreCase`; induction on lists, order laws | `C04_compare_eq_iff`, `C04_compare_lt_iff`, `C04_compare_total_order` |
| C05 | Region offsets never leave the region | proved | `Region.offset`; case split, arithmetic | `C05_region_offset` |
| C06 | A volume is accepted exactly when both magics are present | proved | `readVolume` over an arbitrary device; case analysis | `C06_read_volume_iff`, `C06_read_volume_total` |
| C07 | Partition offset detection picks the first valid offset | proved | `offsetNew`; case analysis over the offset list | `C07_offset_first_valid`, `C07_offset_none`, `C07_offset_translation` |
| C08 | Reading a hostile image never panics | proved | reader loops over arbitrary devices; induction on fuel | `C08_reader_never_panics` |
| C09 | Path lookup never panics on any path string | partial | `walkPath`; exact set of panicking strings | `C09_walk_path_never_panics_partial`, `C09_walk_path_never_panics_false` |
| C10 | Directory listing and lookup terminate on every image | partial | `walkLoop`, `findLoop`; rank argument for acyclic links, hand-built cyclic image; exact: listing does not finish iff it reaches an endless chain of legible directories, lookup iff its search path is endless | `C10_walk_finishes_iff`, `C10_walk_hangs_iff`, `C10_find_hangs_iff`, `C10_walk_terminates_false`, `C10_find_terminates_false`, `C10_walk_terminates_partial`, `C10_find_terminates_partial` |
| C11 | Sequential scan terminates on every image | proved | scan iterator; measure (sector, offset) | `C11_scan_terminates` |
| C12 | Sequential scan never panics on any image | partial | scan iterator; invariant, hand-built witness; exact: the scan refines a sector-by-sector specification (`SectorEntries`), which says when it lists, panics or fails | `C12_scan_never_panics_false`, `C12_scan_never_panics_partial`, `C12_scan_exactly` |
| C13 | Whole-file reads return exactly the file region | proved | `readDataAll`; unfolding | `C13_read_all_exact` |
| C14 | Partial reads never return bytes outside the file | partial | `readDataOffset`; unfolding, witness; the exact set of requests answered correctly (`C14_read_offset_iff`) | `C14_read_offset_result`, `C14_read_offset_iff`, `C14_read_offset_in_file_false`, `C14_read_offset_in_file_partial`, `C14_read_offset_prefix_partial` |
| C15 | In-memory devices report out-of-range reads as errors | partial | slice device; unfolding, witness | `C15_mem_read_never_panics_false`, `C15_mem_read_partial` |
| C16 | The directory index is a set | proved | arena AVL tree; refinement to an inductive tree with explicit arena indices, zipper for rebalancing | `C16_insert_is_set`, `C16_duplicate_changes_nothing` |
| C17 | The directory index stays a balanced search tree | proved | as C16 | `C17_balanced_search_tree` |
| C18 | Lookup depth is logarithmic | proved | as C16; balance gives the depth bound | `C18_logarithmic_lookup` |
| C19 | Reordering puts the index in pre-order without changing it | proved | arena exchange as renaming of indices; invariant over the reordering loop | `C19_reorder_preorder`, `C19_swap_siblings_latent` |
| C20 | Index maintenance never panics or loops forever | proved | as C16; every loop has a measure | `C20_avl_never_panics` |
| C21 | Table entries are aligned, never straddle sectors and use representable child offsets | proved | `diskRepr`; invariants over the layout loop | `C21_layout` |
| C22 | Announced table size equals serialized table size | proved | `computeSize` and `diskRepr`; common layout function | `C22_size_agrees` |
| C23 | Every name in a table is found, and only those | proved | search-tree induction over the serialized table | `C23_lookup` |
| C24 | Listing a table returns every entry exactly once | proved | traversal of the serialized table is a permutation | `C24_listing` |
| C25 | Scan and walk agree | proved | scan order is layout order; permutation with the walk | `C25_scan_agrees` |
| C26 | Sector allocations are disjoint | proved | `allocContiguous`; induction over requests | `C26_allocations_adjacent`, `C26_allocations_disjoint`, `C26_allocation_succeeds_iff` |
| C27 | Packing never overwrites its own output | proved | `createImage` over an abstract source and write device; its operations as a plan, disjointness of the plan | `C27_writes_disjoint` |
| C28 | A packed image reads back exactly | proved | as C27; read-back of the plan | `C28_files_read_back` |
| C29 | A packed image lists exactly the source tree | proved | as C28; loop over directories | `C29_listing_is_source` |
| C30 | Absent paths are reported absent | proved | as C28; search fails for other names | `C30_absent_paths` |
| C31 | Case-insensitive duplicates are rejected | proved | as C27; table building | `C31_duplicates_rejected` |
| C32 | Unrepresentable entries are rejected, not truncated | proved | as C27; table building and name encoding | `C32_unrepresentable_rejected` |
| C33 | Every representable tree packs successfully | proved | as C27; success of every step from size bounds | `C33_representable_tree_packs`, `C33_representable_tree_packs_few` |
| C34 | Packing never panics or hangs | proved | as C27; every step returns | `C34_packing_returns` |
| C35 | Image length is a multiple of 64 KiB | proved | as C27; padding arithmetic | `C35_length_multiple` |
| C36 | An interrupted pack is never mistaken for a complete image | proved | prefixes of the write trace, including a cut write: no volume before the last write | `C36_interrupted_tool`, `C36_interrupted_pack` |
| C37 | Progress reports are complete and consistent | proved | log of progress reports of the plan | `C37_progress_reports` |
| C38 | The source tree is scanned completely, parents first | proved | `dir_tree` loop; parents first by induction | `C38_source_scanned` |
| C39 | Compressing sees the same image as packing | proved | sector-linear device; simulation between flat and sector-linear devices | `C39_compress_view`, `C39_compress_view_whole`, `C39_compress_returns`, `C39_compress_succeeds` |
| C40 | Compressing from an image never panics | partial | compression view over an image source; witness, and simulation for large files | `C40_small_file_panics`, `C40_compress_from_image_false`, `C40_cut_file_false`, `C40_compress_from_image_partial`, `C40_readable_iff` |
| C41 | The path index is a map | proved | path prefix tree; refinement to a finite map, induction on histories | `C41_index_is_map`, `C41_insert_changes_nothing_else` |
| C42 | Path index iteration is complete | proved | iterator; induction on the tree | `C42_iteration_complete` |
| C43 | The path index accepts every decodable name | partial | as C41; index arithmetic; the exact set of names (`C43_names_iff`) | `C43_names_false`, `C43_names_partial`, `C43_names_iff` |
| C44 | Repacking an image preserves its tree | partial | `ImgFs` as a source with its cache; composition with C27–C36; the exact set of packed images that repack (`C44_repack_iff`) | `C44_repack_preserves`, `C44_repack_crash`, `C44_repack_of_packed`, `C44_repack_succeeds_partial`, `C44_wide_name_fails`, `C44_repack_succeeds_false`, `C44_repack_iff` |
| C45 | Unpacking a packed tree restores it | proved | `unpack` over the host model; composition with C28–C29 | `C45_unpack_restores` |
| C46 | Unpacking stays inside the destination | partial | path resolution on the host; invariant over all host operations; which paths stay below the destination (`StaysBelow`) is specified on components alone | `C46_stays_below_partial`, `C46_absolute_false`, `C46_unpack_contained_partial`, `C46_unpack_contained_false` |
| C47 | The checksum depends only on contents | proved | hash input stream; function of the sorted listing; a path listed twice: insertions of one key absorb, of two keys commute | `C47_checksum_contents`, `C47_checksum_packed`, `C47_checksum_repacked`, `C47_last_entry` |
| C48 | Different contents give different checksum inputs | partial | parsing the stream back for equal shapes; witness | `C48_inputs_differ_partial`, `C48_inputs_differ_false` |
| C49 | Remap rules follow the documented precedence | proved | rule evaluation; induction on rules | `C49_remap_precedence` |
| C50 | Remapped listing and copying agree | proved | overlay built from rules; invariant over insertion | `C50_listing_copy_agree`, `C50_dump_returns`, `C50_packed_overlay` |
| C51 | Rewrite patterns are parsed exactly | partial | pattern parser; induction on the string; what is read from every string, by a loose grammar (`C51_exactly`) | `C51_patterns_partial`, `C51_patterns_false`, `C51_exactly` |
| C52 | Mounted inode numbers are stable and unique | proved | inode cache; invariant over histories of requests | `C52_inode_numbers`, `C52_root_number` |
| C53 | Directory reading can resume anywhere | partial | `readdir` with offsets; induction over calls; `C53_call_iff` says for all buffers and offsets which calls fail | `C53_resume_partial`, `C53_call_succeeds`, `C53_resume_false`, `C53_listing_ends`, `C53_call_iff` |
| C54 | A mounted file has one inode | partial | inode numbers of `lookup` and `readdir`; injectivity argument | `C54_one_inode_false`, `C54_one_inode_partial` |
| C55 | Reading a mounted file at or past its end returns no data | partial | `read`; composition with C14; the exact set of requests answered correctly (`C55_mounted_read_iff`) | `C55_mounted_read_partial`, `C55_past_end_false`, `C55_mounted_read_iff` |
| C56 | Chunked copying is exact | proved | chunk loop; induction on chunks | `C56_chunked_copy_exact`, `C56_failed_copy_contained`, `C56_success_is_complete`, `C56_std_copy_count`, `C56_host_copy` |
| C57 | extract-xiso create mode accepts every documented argument list | partial | argument loop; induction on tasks; the exact set of argument lists accepted (`C57_create_args_iff`) | `C57_create_args_partial`, `C57_create_args_false`, `C57_create_args_iff` |
| C58 | Rewriting an image never loses it | partial | `exiso_repack` as a sequence of host states; invariant over states | `C58_kept_without_delete`, `C58_rewrite_partial`, `C58_output_complete_or_unreadable`, `C58_delete_false`, `C58_old_overwritten_false`, `C58_same_name_false` |
| C59 | Entry information prints true child offsets | partial | 16-bit arithmetic; tables above 64 KiB by a pigeonhole argument; exact outcome of `info` for any image, by whether all children lie in the first 64 KiB | `C59_info_exactly`, `C59_link_partial`, `C59_info_partial`, `C59_info_false` |
| C60 | Path values behave like lists of components | proved | `PathVec`; list lemmas | `C60_base_of_append`, `C60_suffix_of_extension`, `C60_suffix_result`, `C60_printing`, `C60_print_parse`, `C60_no_empty_component` |
| C61 | Every valid image repacks | partial | as C44, for hand-built images | `C61_valid_image_repacks_partial`, `C61_long_name_false` |
| C62 | Compression tolerates short reads | partial | sector input over a source with short reads; witness `C62_exactly` says for reads that deliver anything what each sector of the encoder is. | `C62_short_reads_false`, `C62_short_reads_partial`, `C62_exactly` |
| C63 | A reported success means the image is on disk | partial | `BufWriter` around the output file; simulation with the unbuffered file | `C63_complete_partial`, `C63_buffer_unnoticed`, `C63_complete_false`, `C63_unreadable_false` |
| C64 | A truncated source image is detected | partial | as C44, for copiers over truncated images `C64_truncated_result` says for every image, truncated or not, what a successful repack with the command line tool's copier holds: the part of each file that is there, followed by zeros, or an error on reading when a part is missing. | `C64_truncated_source_detected_partial`, `C64_truncated_source_accepted_false`, `C64_truncated_result` |
| C65 | Copying out writes exactly the requested part | proved | `copyout`; composition with lookup and unpack | `C65_copyout_file`, `C65_copyout_dir` |
| C66 | An unpack that succeeds wrote every file completely | partial | unpack of arbitrary images; induction over the listing; exactly when it succeeds and which bytes are written (`C66_unpack_exactly`) | `C66_unpacked_complete_partial`, `C66_unpacked_complete_false`, `C66_unpack_exactly` |
| C67 | The MD5 listing covers every file | proved | MD5 listing; as C47 | `C67_md5_all`, `C67_md5_file` |
| C68 | Rewriting substitutes the captured text | partial | substitution; induction on the pattern; any numbers of placeholders against the specification `expandPlain` | `C68_substitution_partial`, `C68_substitution_false`, `C68_any_numbers` |
| C69 | No mapped file is dropped | partial | overlay; as C50; `C69_exactly` tells for all rules and hosts, conflicts included, which file is listed at each place: the first in the order in which the host is walked (Spec/RemapOrder.lean) | `C69_mapped_files_partial`, `C69_mapped_files_false`, `C69_exactly` |
| C70 | A mounted image shows the packed tree | proved | FUSE requests on a packed image; composition with C28–C30 | `C70_mount_shows_tree` |
| C71 | A mounted image is read-only | proved | `open` and `opendir` over arbitrary flags; bit arithmetic | `C71_read_only` |
| C72 | Mount options mean what is written | proved | option parser; induction on the string | `C72_mount_options`, `C72_rejects_unknown` |
| C73 | Rewriting with -d puts the new image in that directory | partial | destination of `-r -d`; host states; exact destination by cases on the host (`foundDest`) | `C73_rewrite_destination_partial`, `C73_rewrite_destination_false`, `C73_exactly` |
| C74 | Packing never changes its source | partial | `cmd_pack` over host states, for resolved paths and for argument strings; exact for typed arguments: kept iff the output is not in the source | `C74_source_unchanged`, `C74_default_output`, `C74_arguments_partial`, `C74_dotdot_false`, `C74_arguments_exactly` |
| C75 | tree prints the whole source tree | proved | `tree`; composition with C29 | `C75_tree` |
| C76 | ls prints the names of a directory | proved | `ls`; composition with C23–C25 | `C76_ls` |
| C77 | Packing a directory and unpacking the image restores the directory | proved | `StdFilesystem` over the host model with arbitrary listing order; composition of C45 and C63, pointwise equality of host trees by induction on the path | `C77_pack_unpack_identity` |
| C78 | Nothing in a packed directory is silently left out | proved | as C77; a listing with such an entry fails, and a failed listing fails the pack | `C78_special_refused` |
| C79 | Packing the same directory twice gives the same image | partial | as C77; witness with two files listed in two orders, checksum equality from C47; exact: byte identity iff both images list alike | `C79_identical_iff`, `C79_reproducible_partial`, `C79_reproducible_false` |
| C80 | A stored image specification does what its options do | partial | `cmd_build_image` and `image-spec from` over the host model; the TOML library is any pair of functions with `parse (print s) = s`; equality of the two plans | `C80_spec_equivalent_partial`, `C80_repeated_pattern_false`, `C80_output_ignored_false` |
| C81 | build-image does not change its source | partial | as C80; every state of the host passed through is returned by the model, case analysis over the run | `C81_source_kept_partial`, `C81_source_overwritten_false` |
| C82 | The dry run of build-image tells what it will do | proved | as C80 with the overlay of C49/C50/C69; lines of the dump correspond to trie records, composed with C23 and C63 | `C82_dry_run_agrees` |
| C83 | build-image refuses a source that does not exist | partial | as C80; case analysis over the path resolution; with `-m` the command is equal to the one for the containing directory | `C83_options_exactly`, `C83_missing_source_partial`, `C83_missing_source_false` |
| C84 | -m rules are used as written | partial | as C80; specification of the rule text independent of the splitting loop, composed with C49 and C69; how any rule is understood (`C84_rules_understood`) | `C84_rules_partial`, `C84_rules_false`, `C84_rules_understood` |
| C85 | Create mode makes an image of each directory | partial | `exiso_create` over the host model with argument strings; induction over the tasks, composed with C78 and C45; where outputs coincide, the last task wins, by the same induction | `C85_create_partial`, `C85_create_false`, `C85_last_wins` |
| C86 | Unpacking does not change the image | partial | `cmd_unpack` with the image as a file of the host, read again for every entry; induction over the listing shows that it equals unpacking an unchanging copy; exact: the image ends up kept or empty, kept iff no file in it gets its path, by induction over the entries | `C86_image_kept_partial`, `C86_image_kept_false`, `C86_exactly` |
| C87 | Extract mode restores each image | partial | as C86; induction over the images, destinations that are not nested do not act on each other | `C87_extract_partial`, `C87_extract_false` |
| C88 | Unpacking without a destination uses the name of the image | partial | as C86; specification of the stem of a name independent of the splitting code; `C88_no_name_panics` settles the paths without a name | `C88_default_partial`, `C88_default_false`, `C88_no_name_panics` |
| C89 | Packing into a memory buffer | partial | `createImage` on a buffer device, reduced to the plan of writes; a write succeeds exactly if it is inside, and then does what it does to a file | `C89_buffer_iff_partial`, `C89_buffer_image`, `C89_zeroed_buffer`, `C89_large_enough_false` |
| C90 | Packing a host directory into a memory buffer | partial | `createImage` on a buffer device with the copying code of `stdfs.rs`; every file of the tree is copied to a positive offset, where the copy panics | `C90_host_to_buffer_false`, `C90_directories_partial` |
| C91 | Compressing does not change its source | partial | `cmdCompressArgs` on path strings and a host; invariant of the encoder loop: only the places of parts change, and only where no directory is; the place of the source is compared with the check on typed paths; for paths typed in any way, from the place of the output directory; exact for directories: kept iff the output is not in the source | `C91_source_kept_partial`, `C91_source_kept_false`, `C91_output_outside_partial`, `C91_directory_exactly` |
| C92 | Compressing a directory | proved | `cmdCompressArgs` on path strings and a host, with the encoder as a parameter; induction over the sectors that are asked for while parts are written, C39 for the sectors, `openPath` for reading back | `C92_compressed_image`, `C92_reads_back`, `C92_compress_succeeds` |
| C93 | Sources that cannot be compressed | proved | `cmdCompressArgs`: nothing is written before the layout is complete (C39) or the image is recognised | `C93_unpackable_dir`, `C93_not_an_image` |
| C94 | Default output of compress | partial | `defaultCompressArg` and `withExtension` on path strings, against the definition of a last component and a stem; `C94_no_name_panics` settles the paths without a name | `C94_default_output_partial`, `C94_no_name_false`, `C94_no_name_panics` |
| C95 | Opening a compressed image uses the parts of that image | partial | `openPath` after `cmdCompressArgs`: induction over the loop that collects parts | `C95_parts_opened`, `C95_opened_partial`, `C95_stale_part_false`, `C95_directory_part` |
| C96 | Compressing an image | partial | `cmdCompressArgs` on an image file: `repackLinear` and the copier of images (C40), induction over the sectors | `C96_small_file_false`, `C96_cut_file_false`, `C96_compressed_image_partial`, `C96_compress_succeeds_partial`, `C96_compress_iff` |
| C97 | The page Pack of the graphical front ends | partial | transition system of the page, its dialog and its jobs (`UiSys`, `PageDef`); invariant by induction over the events | `C97_safe`, `C97_choices`, `C97_usable`, `C97_outcome`, `C97_root_false` |
| C98 | The page Compress of the graphical front ends | partial | transition system of the page, its dialog and its jobs (`UiSys`, `PageDef`); invariant by induction over the events | `C98_crash_false`, `C98_one_job_false`, `C98_finished_false`, `C98_partial` |
| C99 | The page Unpack of the graphical front ends | partial | transition system of the page, its dialog and its jobs (`UiSys`, `PageDef`); invariant by induction over the events | `C99_crash_false`, `C99_one_job_partial`, `C99_safe_partial` |
| C100 | The desktop application shows failures | partial | the commands of the application (`desktopPack`, `desktopUnpack`, `desktopCompress`) answer the pages of `WebUi`; their events are appended to any history | `C100_pack_false`, `C100_missing_false`, `C100_unpack_false`, `C100_compress_false` |
| C101 | Packing in the desktop application | partial | `desktopPack` on the abstract host; refinement to the pack theorems of the command line tool | `C101_only_output`, `C101_directory_partial`, `C101_complete_or_unreadable`, `C101_image_partial`, `C101_own_output_false` |
| C102 | Unpacking in the desktop application | partial | `desktopUnpack` equals `cmdUnpackArgs` in its effect on the host | `C102_unpacked_partial`, `C102_image_lost_false` |
| C103 | Compressing in the desktop application | partial | `desktopCompress` equals `cmdCompressArgs` without its checks; places of the parts | `C103_in_folder_false`, `C103_parts_beside_partial`, `C103_like_tool` |
| C104 | The progress bar of the desktop application | partial | the reports of `createImage` (C37) and of the unpack loop, folded over the counters of the page, for every prefix | `C104_pack_partial`, `C104_pack_image_partial`, `C104_unpack_partial`, `C104_large_false` |
| C105 | Packing in the browser | partial | `browserPack` on the abstract host, with streams that show their content when closed; refinement to packing into a file (`web_as_file`) and from there to the pack theorems; the tree of a folder is compared with the tool's listing of the host (`web_readDir_ok`, `web_tool_pack`) | `C105_folder`, `C105_image`, `C105_like_tool`, `C105_image_succeeds_partial`, `C105_wide_name_false`, `C105_image_iff` |
| C106 | Packing in the browser is all or nothing | proved | case analysis of `browserPack`: the content of a stream reaches the host only when it is closed | `C106_all_or_nothing`, `C106_refused` |
| C107 | Packing a folder in the browser is reproducible | proved | the tree of a folder is unique (`populate_unique`), and so are the plan and what is written | `C107_reproducible` |
| C108 | Unpacking in the browser | partial | invariant of the loop of `browserUnpack` over its stack (`WebInv`, `webUnpackLoop_spec`): what is done, what is on the stack, and that everything else is as before; termination by the finite number of entries of a packed image | `C108_contained`, `C108_merges_partial`, `C108_restores`, `C108_succeeds`, `C108_stale_false`, `C108_image_lost_false`, `C108_truncated_false` |
| C109 | Progress of unpacking in the browser | partial | the reports of the loop folded into the two numbers of the page (`barStep`, `webUnpackLoop_sense`, `webUnpackLoop_counts`), and the page's own behaviour from C100; the number of empty files in closed form | `C109_sense`, `C109_full_partial`, `C109_empty_files_false`, `C109_exactly` |
| C110 | Compressing in the browser | partial | the loop of the encoder only creates empty parts until all sectors were read (`Creates`, `webEncodeLoop_before`), so every sector reads as before (`WebStable`); the sectors are those of the packed image (`web_view`), and closing the streams puts the parts in place (`web_encode_stored`) | `C110_folder`, `C110_like_tool`, `C110_small_file_false`, `C110_cut_file_false`, `C110_image_partial`, `C110_image_succeeds_partial`, `C110_image_iff`, `C110_contained`, `C110_error_partial`, `C110_leftover_false` |
| C111 | Success and errors are shown in the browser | partial | the messages of each operation are replayed on the model of its page (C97 to C99); after a panic no event is possible | `C111_pack`, `C111_unlisted_false`, `C111_unpack`, `C111_compress` |
| C112 | The mount command tells what happened | partial | both processes, the pipe between them, requests and kills as a transition system; invariants by induction over histories (`mountRun_trace`), a measure for termination | `C112_status_false`, `C112_bad_image_false`, `C112_early_false`, `C112_mounts_partial`, `C112_alone`, `C112_returns`, `C112_parent_killed`, `C112_arguments`, `C112_serves_image` |
| C113 | A mounted image keeps answering | partial | an entry found by search or scan is determined by its place in the image (`entryAt`), so that less than 2^45 numbers are given out (`Counts`); on a packed image every numbered entry is located (`AllKnown`), so that searches and scans succeed; induction over requests and over histories of the program | `C113_packed_answers`, `C113_packed_serves`, `C113_any_image_partial`, `C113_hostile_false` |
| C114 | Where pack writes when no output is given | proved | the name arithmetic of `with_extension` is reduced to the stem of a name (`HasStem`); the comparison with the source to an equality of places (`default_is_source`) | `C114_default_output`, `C114_never_input`, `C114_root` |
| C115 | Extract mode stops at the first failure | proved | induction over the list of images | `C115_extract_stops`, `C115_extract_succeeds` |
| C116 | The compress page shows the progress of compression | partial | replay of the reports on the model of the page (`comp_fold`, `sectors_done`); 32-bit arithmetic; the value of the bar in closed form and when it is full | `C116_bar_exactly`, `C116_full_iff`, `C116_bar_partial`, `C116_full_partial`, `C116_large_false` |
| C117 | How an image is stored makes no difference to the reading commands | proved | two devices that read alike below 2^44 (`AgreeLow`) give the same result for every command (`readOn_agree`); the partition of a disc and the decoded parts read like the image (`disc_agrees`, C92) | `C117_whole_disc`, `C117_compressed` |
| C118 | What the checksum command prints | proved | induction over the images (`readEach_spec`); equal contents by C47 | `C118_checksum_command`, `C118_same_contents` |
| C119 | What list mode prints | proved | induction over the images (`readEach_spec`) | `C119_list_mode` |
| C120 | Copying part of a file copies exactly that part | partial | the chunks a source delivers are reduced to their concatenation (`copiesParts_of`); an image by the invariant of its cache after any listings (`lists_inv`), in memory by induction over the chunks (`memWriteChunks_flatten`); exact outcome of copying any range of a file of an image | `C120_host`, `C120_browser`, `C120_overlay`, `C120_image`, `C120_beyond_end_false`, `C120_image_buffer`, `C120_host_buffer`, `C120_browser_buffer`, `C120_image_exactly` |
| C121 | Read errors never lead to wrong results | partial | a relation on outcomes (the same, or an error) that sequencing preserves (`soe_bind`), by induction over every loop of the reader; a file that ends earlier is such a device (`fails_take`) | `C121_operations`, `C121_commands`, `C121_cut_image`, `C121_cut_file_partial`, `C121_cut_unpack_partial`, `C121_cut_copyout_partial`, `C121_other_volume_false` |
| C122 | Errors of the source never lead to a wrong image | proved | the same relation on computations with a state (`FailsM`, `failsM_bind`), by induction over the loops of the packer, of the copier and of the encoder; the loop of `std::io::copy` over a source that may fail at any read is modelled too (`ioCopyLoop`) | `C122_pack`, `C122_repack`, `C122_repack_file`, `C122_repack_holds`, `C122_compress` |
| C123 | The reading commands print what is in the image | partial | C76, C75, C59 and C67 carried through opening (`readCommand_disc`); `lsOn_eq`: printing names one by one comes to the same as listing first | `C123_ls`, `C123_tree`, `C123_info_partial`, `C123_info_false`, `C123_md5_all`, `C123_md5_file` |
| C124 | `md5` of a directory | partial | `Img.listsBelow` (C108) gives the listing of a subdirectory; `md5Tree_eq`; injectivity of `slashPath` | `C124_md5_directory_partial`, `C124_md5_directory_false`, `C124_md5_root_false` |
| C125 | A packed image is compact | proved | `PlanShape.consecutive` gives the places in allocation order; lengths from `applyTrace_length`, minimality from the last nonempty place | `C125_compact_layout` |
| C126 | A packed image contains nothing but the tree | proved | every byte comes from a write of the trace (`applyTrace_byte`); writes are attributed to places (`write_in_place`); tables by the position of every entry (`tabBytes_byte`) | `C126_descriptor`, `C126_nothing_else` |
| C127 | Packing into a partition of a disc | partial | simulation: each operation on the partition does behind the prefix what it does on a file of its own (`runOps_behind`); the padding is treated apart (`padImage_behind`) | `C127_pack_into_partition_partial`, `C127_partition_holds_tree`, `C127_false` |
| C128 | Seeking in a partition | partial | case distinction and integer arithmetic against `seekTarget`; `C128_exactly` says for all arguments what happens | `C128_seek_in_partition_partial`, `C128_false`, `C128_exactly` |
| C129 | A failing unpack leaves only parts of the tree | proved | induction over the listing with an invariant on what may differ between two states of the host (`EntryChanges`), which is reflexive and transitive | `C129_unpack_failing_host` |
| C130 | Unpacking into a place that is not empty | partial | success from the induction of C45 under weaker hypotheses (`copyoutLoop_restores`), the converse because nothing is ever removed (`copyoutLoop_free`) | `C130_success_needs_room`, `C130_unpack_over_existing_partial`, `C130_unpack_again_false` |
| C131 | Attributes and time stamp | partial | induction over the components of the path, with the lookup theorem C23 for each directory; a repacked image is a packed image of the listing of its source; which time stamps and attributes survive a repack, as equivalences | `C131_packed_attributes`, `C131_repack_attributes_partial`, `C131_repack_loses_attributes_false`, `C131_repack_exactly` |
| C132 | The way paths are written does not matter for build-image | partial | refinement: the run from the strings equals the run from the resolved paths, by induction over the components of the strings (what trimming drops names nothing; parent, join and extension agree with the operations on resolved paths) | `C132_arguments_partial`, `C132_slashes`, `C132_bare_name_false`, `C132_no_name_false` |
| C133 | Iterating over a directory | partial | simulation of the scan without failures by the iterator, step by step, with the state that a failed read leaves behind; induction over the calls; either the listing is whole or the last read made is the first that failed | `C133_exactly`, `C133_iteration_partial`, `C133_packed_directory`, `C133_read_error_false` |
| C134 | What determines an image | partial | a search tree is determined by its pre-order, a balanced arena by its tree, hence a table by its entries and their stored order; induction over the directories in the order in which they are written; for small directories the shape of the tree; exact: identical iff listed alike | `C134_repack_identical_iff`, `C134_determined`, `C134_repack_identical_partial`, `C134_repack_differs_false` |
| C135 | Lookup and listing agree on images of other tools | partial | induction over the steps of the search and of the walk (what the search passes is reachable, and the walk delivers everything that is reachable); induction over the search tree; induction over paths along the recursive listing | `C135_found_has_name`, `C135_found_is_listed_partial`, `C135_listed_is_found`, `C135_absent_partial`, `C135_path_found_is_listed_partial`, `C135_path_listed_is_found`, `C135_path_absent_partial`, `C135_absent_false`, `C135_found_is_listed_false` |
| C136 | The way a path is written does not matter for lookups | proved | induction over the path string, and over the search for names that are equal ignoring case | `C136_letter_case`, `C136_leading_slashes`, `C136_trailing_slash` |
| C137 | Repacking keeps everything that is listed | partial | induction over the directories of the packed tree and over the paths of the recursive listing (each directory that one of them visits is visited by the other), then C44 | `C137_repack_keeps_listing_partial`, `C137_entry_lost_false`, `C137_entry_appears_false` |
| C138 | Packed and repacked images are well-formed | proved | the tree that a written table represents (C21-C25) as a search tree of the specification, by induction over the tree; induction over the paths of the recursive listing to reach every directory | `C138_packed_well_formed`, `C138_repacked_well_formed` |
| C139 | Changing a file changes its own bytes in the image only | proved | the plan of an image is a function of the listings; two runs of the same writes with data of the same lengths keep the images equal except where the data differ, by induction over the writes | `C139_changes_stay_local`, `C139_patch_in_place` |
| C140 | Bytes that belong to nothing do not matter | proved | every write of a pack lies in a place (C125), so everything a reader needs holds of every image that agrees on the places; the listings of two such images are equal, and the image is a function of the listings (C134) | `C140_slack_ignored`, `C140_repack_drops_slack`, `C140_around`, `C140_old_contents` |
| C141 | Files that change while they are packed | proved | the writes of such a pack are the writes of a pack of a source that fills its files up with zeros, less the filling; where nothing is written a new file holds zeros or ends, so the image followed by zeros is the other image | `C141_changing_directory`, `C141_short_files`, `C141_short_tree` |
| C142 | Different trees give different images | proved | an image has exactly one listing, and the listing of a packed image is the packed tree (C01, C19); for hosts both images unpack to the same directory, which holds what the packed directories hold (C77) | `C142_image_determines_tree`, `C142_same_image_iff`, `C142_same_directory` |
| C143 | Packing a copy of a directory | proved | a plan of an image depends on a source only through its listings; the plans of two sources with the same listings agree (induction over the walk and over the tables); checksums by C47 and the unpacked directory by C77 | `C143_same_listings`, `C143_copy_checksum`, `C143_copy_image`, `C143_pack_unpack_pack` |
| C144 | Which sources can be packed | proved | success implies storable listings (C31, C32), storable listings imply success (C33); the limit from the 16-bit links: the last entry of a table begins at most 4 * 65534 bytes into it | `C144_packs_iff`, `C144_directory_limit` |
| C145 | What the error of a failing pack tells | proved | induction over the walk, the tables and the operations: each error comes from a listing, from a test of a name or size, or from the device; defects are found while planning, before the first operation | `C145_error_is_true`, `C145_refusal`, `C145_only_reason`, `C145_duplicates_named`, `C145_pack_command` |
| C146 | What no command was told to write stays, and an image restores its directory afterwards | proved | a frame theorem for each command (every state it can leave differs only in places it was told to write, and is a file system again), induction over the history, and C74/C45 for the image | `C146_untouched`, `C146_backup` |
| C147 | Reading a file into a buffer | partial | the read at the start of the region, for every device whose shorter reads agree with its longer ones; `C147_exactly` says for all arguments what happens | `C147_buffer_partial`, `C147_packed_partial`, `C147_long_buffer_false`, `C147_exactly` |
| C148 | Jobs of different tabs do not disturb each other's pages | partial | a simulation: each history of the application gives a history of each page, with the same events and the reports of other jobs inserted (none in the browser, or while a single job listens); induction over the history; invariant: dialogs are open on the shown page only; an event is possible iff it is on the page alone and the application allows it | `C148_pages`, `C148_browser`, `C148_desktop_partial`, `C148_one_job`, `C148_bar_false`, `C148_one_dialog`, `C148_acts` |
| C149 | A specification written by image-spec builds the same image | proved | the table that `image-spec` fills, as a function of the list of rules (induction), and equality of the plans of the two runs; at the level of the arguments as typed | `C149_only_file`, `C149_build`, `C149_refused`, `C149_in_place` |
| C150 | What ls, tree and info print tells images apart | partial | the printed text as a list of characters; cutting it at line breaks, a line of `tree` at its last parenthesis and slash, a line of `info` at its label, and the attributes by the capitals of their words, each proved injective | `C150_ls_partial`, `C150_tree_partial`, `C150_packed_partial`, `C150_info_partial`, `C150_ls_false` |
| C151 | How long an image becomes | partial | the places of C125 are, up to order, the directories and files of the tree; sums over them bound the last sector that is used, from below by induction over the places and from above by the size of each table in any order | `C151_length_between`, `C151_length_partial`, `C151_order_false` |

## 5. Properties that are false of the code

For each the negation is proved (`_false` and similar names), together with a `_partial` theorem that
says what does hold.

| Id | What is false, and the witness | Code | What does hold |
|----|----|----|----|
| C09 | `C09_walk_path_never_panics_false`: C09 is false: looking up `"//"` panics on every image. | `read.rs` `walk_path`, `unreachable!` | `C09_walk_path_never_panics_partial`: C09 (partial: exact set of panicking paths). Missing: C09 itself is false, see `C09_walk_path_never_panics_false`. On any device whose reads return, looking up a path panics exactly when the path consists of two or more slashes and nothing else. |
| C10 | `C10_walk_terminates_false`: C10 is false (listing): on this image, listing the table never finishes. `C10_find_terminates_false`: C10 is false (lookup): on the same image, searching `a` never finishes. | `read.rs` `walk_dirent_tree`, `find_dirent` | `C10_walk_terminates_partial`: C10 (partial: tables without link cycles). Missing: images with cyclic links, for which the property is false. On any device whose reads return, listing a table whose links are acyclic finishes, and gives the same outcome from some amount of fuel on. `C10_find_terminates_partial`: C10 (partial: tables without link cycles, not larger than 262140 bytes). Missing: cyclic tables. Searching any name finishes. |
| C12 | `C12_scan_never_panics_false`: C12 is false: scanning this sector panics (assertion at `read.rs:66`). | `read.rs` `DirentScanIter::next_entry`, assertion on the name | `C12_scan_never_panics_partial`: C12 (partial: no name crosses a sector end). Missing: images in which an entry's name runs past the end of its sector, for which the property is false. If every sector the table covers contains no such entry, scanning never panics. |
| C14 | `C14_read_offset_in_file_false`: C14 is false: in the image `1..8` holding a 4-byte file at its start, reading 4 bytes of the file at offset 2 returns two bytes that do not belong to it. | `layout.rs` `read_data_offset`: only the size is clamped | `C14_read_offset_in_file_partial`: C14 (partial: requests inside the file are exact). Missing: requests that reach past the end of the file, for which the property is false. A non-empty request lying inside a file whose bytes lie inside the image returns exactly the requested file bytes. `C14_read_offset_prefix_partial`: C14 (partial: the returned bytes start correctly). Whenever a request at an offset inside the file succeeds, the part of the result before the end of the file is correct; what is wrong in the failing case is that more bytes follow. |
| C15 | `C15_mem_read_never_panics_false`: C15 is false: reading two bytes at offset 2 of a three-byte slice panics. | `blockdev.rs` `impl BlockDeviceRead for [u8]` | `C15_mem_read_partial`: C15 (partial: exact set of panicking requests). Missing: requests that start inside the slice and reach past its end, for which the property is false. All other requests return the bytes or `OutOfBounds`. |
| C40 | `C40_small_file_panics`: C40 is false: whenever an image contains a file that is not empty and smaller than a sector, and the image is packed for compression, reading one of the resulting sectors panics. `C40_compress_from_image_false`: The hypotheses hold for the sample, so compressing the image of the sample panics. `C40_cut_file_false`: C40 is false: whenever an image ends within the last sector of one of its files, and the image is packed for compression, one of the resulting sectors cannot be read. | `write/fs/sector_linear.rs`, `xdvdfs.rs` `copy_file_in`: copying a sector of a file shorter than a sector panics; an image that ends within the last sector of one of its files cannot be compressed either, whole sectors of the file being read | `C40_compress_from_image_partial`: C40 for images whose files are empty or at least a sector long, and have their last sector in the image to its end: every sector can be read, and the compressed image holds the tree of the source. Missing: files smaller than a sector, and images that end within the last sector of a file, for which `C40_small_file_panics` and `C40_cut_file_false` show the claim to be false. |
| C43 | `C43_names_false`: C43 is false: a name that a directory entry can carry (the single byte `0x80`, the euro sign) panics on insertion and on lookup. | `write/fs/mod.rs` path prefix tree, 256 children | `C43_names_partial`: C43, for names without a byte between `0x80` and `0x9f`: insertion and lookup always return. |
| C44 | `C44_wide_name_fails`: C44, failure: an image with a name that contains a character above `U+00FF` never repacks. `C44_repack_succeeds_false`: Without the condition on names C44 is false: the tool itself packs a file named `€`, but cannot repack the image it wrote. | as C43 | `C44_repack_succeeds_partial`: C44, success: an image packed from a representable source tree whose names are made of characters below `U+0100` repacks successfully. Missing: other names, see `C44_repack_succeeds_false`. |
| C46 | `C46_absolute_false`: C46 is false: the tool packs a file named `/x`, and unpacking the image into the existing empty directory `out` succeeds and writes the file `/x` of the host. `C46_unpack_contained_false`: C46 is false: the tool packs a file named `../x`, and unpacking the image into the existing empty directory `out` succeeds and writes the file `x` beside `out`. | `cmd_unpack.rs`: names are joined to the destination unchecked | `C46_stays_below_partial`: C46 for images whose names do not lead out of a directory: a name may contain slashes, but is then not absolute and has no component `..`. Whatever else the image contains, and whatever faults occur, unpacking changes nothing outside the destination, except that missing directories on the way to it may be created. The name `..` itself needs no exception. `C46_unpack_contained_false` is about the name `../x`, and `C46_absolute_false` about `/x`. `C46_unpack_contained_partial`: C46 for images without a slash in a name: whatever else the image contains, and whatever faults occur, unpacking changes nothing outside the destination except that missing directories on the way to it may be created. What is missing from C46 is that names with slashes are rejected: see `C46_unpack_contained_false`. |
| C48 | `C48_inputs_differ_false`: C48 is false: two sources with the same two files, whose contents are exchanged, pack to images with the same checksum, whatever the hash function. | `checksum.rs`: names and data are fed without lengths | `C48_inputs_differ_partial`: C48 for images of the same shape: if two images have the same paths, kinds and file sizes, and the bytes fed to the hash are equal, then the images have the same contents. What is missing from C48 is that images which differ in paths or sizes feed different bytes: see `C48_inputs_differ_false`. |
| C51 | `C51_patterns_false`: C51 is false in general: `{1{2}` has a brace whose content is not a number, and is accepted, with the number 12; and a number of 2^64 is an arithmetic overflow. | `remap.rs` pattern parser | `C51_patterns_partial`: C51, for patterns without a brace inside braces and with numbers below `2^64`: a pattern is accepted exactly if it consists of characters and of digits in braces, and then yields the numbers in the braces, in order; it is rejected exactly if a brace is left open or if braces contain a character that is not a digit, and the position reported for that is the position of the first such character. The general statement is false, see `C51_patterns_false`. |
| C53 | `C53_resume_false`: C53 is false in general: if the first buffer has room for one record only, the call fails instead of delivering `.` alone, for every directory of every image. | `img_fs.rs` `readdir` | `C53_resume_partial`: C53, for listings in which no call fails: however a client splits reading a directory over calls, with whatever buffers and whatever other requests in between, it receives `.`, `..` and then every entry of the directory exactly once and in order. What is missing: a call can fail, see `C53_resume_false`. |
| C54 | `C54_one_inode_false`: C54 is false, for every mounted image and every directory whose table is not in sector 0 (as in every packed image): the number that looking up a name reports never appears in a listing of the directory. | `img_fs.rs` inode numbers | `C54_one_inode_partial`: C54, what does hold: looking up the same name again, in any letter case and at any later time, reports the same number, and so does listing the same directory again, record by record. What is missing: the two kinds of numbers do not agree, see `C54_one_inode_false`. |
| C55 | `C55_past_end_false`: C55 is false for every file that is not empty: reading at or past its end fails instead of returning no data, and a request that starts after the first byte and crosses the end never returns just the remaining bytes. | `img_fs.rs` `read` | `C55_mounted_read_partial`: C55, for offsets before the end: a request inside the file returns exactly the requested bytes; a request that crosses the end either fails or starts with all the remaining bytes; and reading an empty file returns no data. What is missing: see `C55_past_end_false`. |
| C57 | `C57_create_args_false`: C57 is false: an argument list in which a later task names its output file is always rejected. | `exiso_compat.rs`, `i += 2` | `C57_create_args_partial`: C57 (part): every documented argument list in which only the first task names its output file is parsed into exactly its tasks. |
| C58 | `C58_delete_false`: C58 is false with `-D`: whenever a rewrite of one image in place succeeds, there is a failing write, the one that empties the buffer when the output is closed, with which the command reports success, the original is deleted, and the new image is not complete. `C58_old_overwritten_false`: C58 is false when one of the images is called what an earlier one is renamed to: rewriting the first destroys the second before anything is written, whatever the options. `C58_same_name_false`: C58 is false for images of the same name in different directories: after a successful `-r -D -d DIR a/x.iso b/x.iso`, without any failing write, neither the bytes of the first image nor an image with its tree exists anywhere. | `exiso_compat.rs` `exiso_repack` | `C58_rewrite_partial`: C58 (part): if the images do not get in each other's way, and no error is lost when an output is closed, then at every moment of a rewrite, with or without `-D`, whatever fails, every readable image still has its bytes under its own name or under the `.old` name, or the new image is complete. |
| C59 | `C59_info_false`: C59 is false: on every packed image, `info` on a directory with more than 4096 entries panics, or prints for some entry a child offset that is not the one its link designates. | `cmd_info.rs` `print_dirent`, `4 * u16` | `C59_link_partial`: C59, arithmetic: a link is printed as the offset it designates if it is below `2^14`; otherwise the tool panics, or prints another offset. `C59_info_partial`: C59 (part): on a packed image whose directory tables all stay within 64 KiB, `info` on the root prints a true listing; on an entry it prints the entry truly, followed, for a directory, by a true listing of it. |
| C61 | `C61_long_name_false`: C61 is false: an image with one empty file, whose name of 200 characters is legal on disk, opens and lists, and its file reads as empty, but repacking it fails. | `write/dirtab.rs`: UTF-8 length compared with 255 | `C61_valid_image_repacks_partial`: C61 for images whose names are made of characters below `U+0100` and take at most 255 bytes in UTF-8: if the directories can be listed and hold distinct names, the files can be read, and the sizes are within bounds, repacking succeeds. Missing: the other names, see `C61_long_name_false` and `C44_repack_succeeds_false`. |
| C62 | `C62_short_reads_false`: C62: the property is false. The sector is filled by a single `read`, and what it did not deliver is replaced by zeros without an error: with a file system that delivers one byte per read, the sample file `A/c` with content `1, 2, 3` is compressed as `1, 0, 0`. | `write/fs/sector_linear.rs`, `stdfs.rs`: one `read` per sector | `C62_short_reads_partial`: C62, what does hold: if every read of a sector delivers the whole sector (or the rest of the file), the view is the image. Missing: reads that deliver less. |
| C63 | `C63_complete_false`: C63 is false: for every source that packs, with any buffer of at least 64 KiB, there is a fault for which the tool reports success although the file does not hold the tree, or does not have its full length: the error of the last flush, made when the buffer is dropped, is ignored. `C63_unreadable_false`: C63 is false: packing a directory with one file of 61440 bytes through the tool's buffer, there is a fault for which the tool reports success and leaves a file of the right length that is not an image: it does not open. | `cmd_pack.rs`, `exiso_compat.rs`: the writer is dropped, not flushed | `C63_complete_partial`: C63 (part): if the tool reports success and every byte given to the buffer reached the file, then the file is byte for byte the one that packing straight into a file without faults produces, so everything proved about those holds for it; in particular it holds the source tree, and its length is a multiple of 64 KiB. |
| C64 | `C64_truncated_source_accepted_false`: C64 is false for the copier of the command line tool: an image whose only file lies behind its end, so that reading the file fails, repacks successfully, whatever the sizes of the pieces in which `std::io::copy` transfers data. | `stdfs.rs`, `xdvdfs.rs` copiers: the count of `io::copy` is not compared | `C64_truncated_source_detected_partial`: C64 for the chunked copier on a file: a repack that succeeds has read every file of the source completely, so the new image holds the tree and the contents of the source; no assumption that the files of the source can be read. Missing: the copier based on `std::io::copy`, which the command line tool uses and for which `C64_truncated_source_accepted_false` shows the claim to be false. |
| C66 | `C66_unpacked_complete_false`: C66 is false when the handle can be duplicated: an image that ends before the data of its only file (5 bytes long) is unpacked without an error, and the file is created empty. | `cmd_unpack.rs` fast path, `io::copy` | `C66_unpacked_complete_partial`: C66 when the handle of the image cannot be duplicated: if unpacking any image into a fresh place succeeds, without faults of the host, and the listed names are host names that lead to different places, then every listed file has been written with the size and the data the image gives for it. What is missing from C66 is the faster path the tool normally takes: see `C66_unpacked_complete_false`. |
| C68 | `C68_substitution_false`: C68 is false in general: `{01}` is accepted as the number 1 and then not replaced, and text that was substituted is substituted again if it looks like `{1}`. | `remap.rs` substitution | `C68_substitution_partial`: C68, for patterns whose numbers are written without leading zeros and captured texts without opening brace: the image path of a host path is given by the pattern with every `{n}` replaced by the text captured under `n` (nothing if there is none), with leading dots removed, split into its non-empty components, and followed by the components of the host path below the part that was matched. The general statement is false, see `C68_substitution_false`. |
| C69 | `C69_mapped_files_false`: C69 is false in general: of two files mapped to the same place only the first is kept, without an error. | `remap.rs` overlay construction | `C69_mapped_files_partial`: C69, when no file is mapped to the root, to the same place as another entry of the host, or to a place below which another entry is mapped: every file of the host to which the rules apply is listed by the overlay at the place where the rules map it, with its length, and copying it copies that file. The general statement is false, see `C69_mapped_files_false`. |
| C73 | `C73_rewrite_destination_false`: C73 is false: with `-d DIR` for any directory but the root, no file in `DIR` is created or changed, whatever happens, except images that are themselves there; a successful rewrite leaves its output beside `DIR`. | `exiso_compat.rs`, `with_file_name` | `C73_rewrite_destination_partial`: C73 (part): after a successful rewrite without `-d`, or with `-d /`, the new image is where it is expected, and complete. |
| C74 | `C74_dotdot_false`: C74 is false: `pack /s ../s/o`, run in `/w`, succeeds, and creates its output inside the source `/s`; the image holds a file `o` that was not in the source. | `img.rs`, `absolute_path`: `..` is kept when the output does not exist yet | `C74_arguments_partial`: C74 for the arguments of `pack` as they are typed (partial: what was in the source). Missing: that nothing is added to the source if the output is given with `..` in its path and does not exist yet, which is false, see `C74_dotdot_false`. At every moment, whatever fails, everything that was in the source is as it was, at most one file of the host has changed, the output, and if its path contains no `..`, nothing was added to the source either. |
| C79 | `C79_reproducible_false`: C79 is false: two packs of the same directory, with two files, give different images if the host lists the directory in different orders. | `stdfs.rs` `read_dir` order decides the shape of the search tree in `dirtab.rs` | `C79_reproducible_partial`: C79 (partial: the contents). Missing: equal bytes, which is false, see `C79_reproducible_false`. Two packs of the same directory, whatever the order in which the host lists directories, give images with the same checksum, for every hash function. |
| C80 | `C80_repeated_pattern_false`: C80 is false for rules that repeat a pattern: with `-m a:x -m '!a' -m a:y`, `build-image` maps `a` to `y`, but with the specification that `image-spec from` makes of these options it maps nothing, because the table of rules keeps the place of the first `a:x` and the value of the last `a:y`, so that the exclusion comes last. `C80_output_ignored_false`: C80 is false for `-O`: with `-m a:x -O o`, `build-image` ignores `-O`: nothing is created at `o` in the source directory; with the specification that `image-spec from` makes of the same options, the image is created there. | `cmd_build_image.rs`: rules in an ordered map; `-O` not consulted | `C80_spec_equivalent_partial`: C80 (partial: different patterns, and no `-O`). Missing: rules that repeat a pattern, and `-O`, for both of which the property is false, see `C80_repeated_pattern_false` and `C80_output_ignored_false`. Let `spec` be what `image-spec from` makes of some `-m` options, stored in the file from which `build-image` takes its specification. Then `build-image` does exactly the same with the specification as with the options; and if `image-spec from` refuses the options, so does `build-image`. |
| C81 | `C81_source_overwritten_false`: C81 is false: an output path in the source is accepted, and the file of the source at that path is replaced by the image. | `cmd_build_image.rs`: output path not compared with the source | `C81_source_kept_partial`: C81 (partial: at most one file changes). Missing: that this file is not one of the source, which is false, see `C81_source_overwritten_false`. At every moment of a run of `build-image`, and after it, the host is as it was before except for one file, which is the output path if one was given; a dry run changes nothing. If neither an output path is given nor the specification names one, nothing in the directory that is mapped changes. |
| C83 | `C83_missing_source_false`: C83 is false with `-m`: for the source path `/s/z`, which does not exist, the files of `/s` are mapped. | `cmd_build_image.rs`: a source that is not a directory is taken for a specification file | `C83_missing_source_partial`: C83 (partial: without `-m`). Missing: runs with `-m`, for which the property is false, see `C83_missing_source_false`. A run without `-m` for which there is no specification that can be read, for instance because the source path does not exist, fails and changes nothing. |
| C84 | `C84_rules_false`: C84 is false for rules with more colons: `-m a:x:y` maps `a` to `x`; the rest is dropped. | `cmd_build_image.rs`: `split(':')`, first two parts | `C84_rules_partial`: C84 (partial: rules with at most one colon). Missing: rules with more colons, which are not used as written, see `C84_rules_false`. A dry run with `-m` options prints only mappings of what is in the mapped directory, to the place where the rules, read as `HOST:IMAGE`, map it; and if no file is mapped to the root or over something else, it prints one for every file that the rules map. Options without a colon that are not exclusions are refused. |
| C85 | `C85_create_false`: C85 is false: `-c /g.1 -c /g.2` reports success, but both images go to `/g.iso`, so that the second replaces the first: no file but `/g.iso` has changed, and that is an image of `/g.2`, not of `/g.1`. | `exiso_compat.rs`, `cmd_pack.rs`: directories that differ only in what follows the last dot have the same default output | `C85_create_partial`: C85 for tasks whose outputs differ (partial). Missing: that tasks without a FILE have outputs that differ, which is false, see `C85_create_false`. If create mode reports success, the outputs were flushed when they were closed, and no output is in a directory that is packed, then each task has left an image of its directory at its output, and nothing else has changed. Whatever the order in which the host lists directories. |
| C86 | `C86_image_kept_false`: C86 is false: an image `g.iso` in the working directory that contains a file `g.iso` is itself overwritten by `unpack g.iso .`. Where files are cloned by the host the command even reports success, and the image is empty. | `cmd_unpack.rs`: files are created without looking whether they are the image | `C86_image_kept_partial`: C86 for an image outside the destination and without a slash in a name: whatever the image contains and whatever faults occur, the image file is the same afterwards, and the command does what it does on a copy of the image that nothing can change, so that what C45 and C46 say holds. What is missing from C86 is an image inside the destination: see `C86_image_kept_false`. |
| C87 | `C87_extract_false`: C87 is false: extract mode on `/a/g.iso` and `/b/g.iso` succeeds, but both go to `g` in the working directory, and the file of the first image has been replaced by that of the second. | `exiso_compat.rs`: images with the same stem have the same destination | `C87_extract_partial`: C87 for images that do not get in each other's way: if every image was packed from some source, the destinations are fresh, none of them is inside another and no image is inside any of them, then extract mode succeeds, the tree of each image is below its own destination, and nothing has changed outside of the destinations except that missing directories on the way to them may have been created. What is missing from C87 are images with the same destination: see `C87_extract_false`. |
| C88 | `C88_default_false`: C88 is false: an image `g` in the working directory cannot be unpacked without a destination, because that would be `g` as well, although the same image can be unpacked under any other name; and a path without a file name, such as `..`, makes the command panic instead of failing. `C88_no_name_panics`: C88, for every path, whatever is there: if it ends in a name, unpacking without a destination is the same as unpacking to some destination that depends on nothing but the name; if not, it always panics and changes nothing. | `cmd_unpack.rs`: an image without an extension is its own destination; `unwrap` on the file name | `C88_default_partial`: C88 for images whose name has an extension: every path that names a file has a default destination, and if nothing with that name exists in the working directory then unpacking without a destination restores the image there and changes nothing else. What is missing from C88 are images in the working directory without an extension, and paths that name no file: see `C88_default_false`. |
| C89 | `C89_large_enough_false`: C89 is false without the condition on the size: there is a source that packs into a file, and for every buffer that is larger than that file by one byte, packing into it fails. | `img.rs`: the padding is appended to the device, so a buffer whose size is not a multiple of 64 KiB is too small whatever its size | `C89_buffer_iff_partial`: C89: when packing into a buffer succeeds (partial). Missing: buffers whose size is not a multiple of 64 KiB, for which it is false, see `C89_large_enough_false`. It succeeds exactly if packing into an empty file succeeds, the buffer is at least as large as that file, and the size of the buffer is a multiple of 64 KiB. |
| C90 | `C90_host_to_buffer_false`: C90 is false: if anywhere in a directory of the host there is a file, packing the directory into a buffer does not succeed, whatever the buffer. | `stdfs.rs`: the rest of the destination is cleared from `output_offset + bytes_read` of a slice that already starts at `output_offset` | `C90_directories_partial`: C90 for directories without files (partial). Missing: directories with files, for which it is false, see `C90_host_to_buffer_false`. If the directory contains only directories, packing it into a buffer succeeds exactly if packing it into an empty file does, the buffer is at least as large as that file, and its size is a multiple of 64 KiB; and then the buffer holds the tree. (`hs`: cutting what is copied into chunks loses nothing.) |
| C91 | `C91_source_kept_false`: C91 is false: in the directory `/s`, compressing `../s` writes the parts into `/s` itself. | `cmd_compress.rs`: the output is compared with the source as typed, so `compress ../s` inside `s`, or an absolute source with a relative output, puts parts into the source | `C91_source_kept_partial`: C91 for paths that are typed alike (partial). Missing: a source or an output with `.` or `..`, and one that is absolute while the other is not; `C91_source_kept_false` shows that these do not hold. Whatever the outcome, `compress` changes nothing at the source or below it, if both paths are free of dots and both relative or both absolute; an image as source must not have the name of a part. `C91_output_outside_partial`: C91 for an output outside of the source (partial), however the paths are typed, with dots or without, relative or absolute. Missing: an output in a directory at or below the source, see `C91_source_kept_false`, and a source that is itself called like a part of the output. Whatever the outcome, `compress` changes nothing at the source or below it. |
| C94 | `C94_no_name_false`: C94 is false: without an output path, compressing `.`, `..` or `/` panics. `C94_no_name_panics`: C94, for every source that exists: if its path ends in a name, compressing without an output path is the same as compressing to some output path; if not, as with `.`, `..` and `/`, it always panics and changes nothing. | `cmd_compress.rs`: the file name of the source is unwrapped, so `compress .`, `compress ..` and `compress /` panic | `C94_default_output_partial`: C94 for sources with a name (partial). Missing: `.`, `..` and `/`, for which `C94_no_name_false` shows that the command panics. Without an output path, a directory `name` is compressed to `name.cso` in the working directory, and an image `name` to its stem with the extension `cso`. |
| C95 | `C95_stale_part_false`: C95 is false: `/s` is compressed to `/w/o.cso` with success, into one part; opened, that part and the file that was left over are taken for parts of one image, and the decoder fails. | `img.rs`: parts are collected until a number is missing, so parts that an earlier, larger image left under the same name are taken for parts of the new one | `C95_opened_partial`: C95 where no part is left over (partial). Missing: directories with a part from an earlier run, for which `C95_stale_part_false` shows the claim to be false. If no file has the name of the next part, opening the first part gives a device that reads like the image, and the image holds what was in the directory. |
| C96 | `C96_small_file_false`: C96 is false: an image with a file that is not empty and smaller than a sector is never compressed. `C96_cut_file_false`: C96 is false: an image that ends within the last sector of one of its files is never compressed. | `xdvdfs.rs`: copying a sector of a file shorter than a sector panics (as in C40), so images with such files are never compressed; an image that ends within the last sector of one of its files is never compressed either, whole sectors of the file being read | `C96_compressed_image_partial`: C96 for images whose files are empty, or at least a sector long and in the image to the end of their last sector (partial). Missing: smaller files, see `C96_small_file_false`, and images that end within the last sector of a file, see `C96_cut_file_false`. If compressing such an image succeeds, the parts hold an encoded image that holds the tree and the contents of the source; nothing else has changed. `C96_compress_succeeds_partial`: C96, success: such an image is compressed, if its names and tables can be written again and nothing stands in the way of the output. |
| C97 | `C97_root_false`: C97 needs the names. In the desktop version the name of a folder is its path. Choosing the root directory crashes the page. | `packing.rs`: the name of the input is unwrapped, so choosing the folder `/` in the desktop version crashes the page |  |
| C98 | `C98_crash_false`: C98 is false: crash. While the image is compressed the buttons can be clicked. If the user chooses an input type then, and an output after the job has ended, the page crashes. `C98_one_job_false`: C98 is false: two jobs. While the image is compressed the same job can be started again: two jobs write the same output. `C98_finished_false`: C98 is false: the end of another job. With two jobs, the page says that everything is done without error while a job still runs. | `compress.rs`: while an image is compressed (after packing) the buttons are not locked: the same job can be started twice, and choosing another input type leads to a crash | `C98_partial`: C98, the part that holds. If the user clicks no button while a job runs: the page does not crash, at most one job runs, and it works on the input and output that the page shows as selected; if no job died the page is usable whenever no job runs. |
| C99 | `C99_crash_false`: C99 is false: crash. After an image was unpacked, the button for the output can still be clicked, but there is no input any more: choosing another folder crashes the page. The same happens after an error. | `unpacking.rs`: starting a job takes the input away but leaves the output button enabled, so unpacking to a second folder crashes the page | `C99_one_job_partial`: C99, the part that holds: one job. At most one job runs; while it runs no button can be clicked and no dialog is open; if no job died, the page is usable whenever no job runs. `C99_safe_partial`: C99, the part that holds: no crash. If the user opens the dialog for the output only while an image is shown as selected, the page does not crash, and the job it starts works on that image. |
| C100 | `C100_pack_false`: C100 is false for the page "Pack". Whatever goes wrong while the job packs: when it answers, the page shows that it has finished, and no error. `C100_missing_false`: C100 is false: a failure. Packing something that does not exist leaves an empty file, and the answer is the same as after success. `C100_unpack_false`: C100 is false for the page "Unpack". `C100_compress_false`: C100 is false for the page "Compress". Here the reports of the job are arbitrary. | `pack.rs`, `unpack.rs`, `compress.rs`: `.ok()?` in a function that returns the error as `Option<String>` turns every failure into `None`, which the page takes for success |  |
| C101 | `C101_own_output_false`: C101 is false: packing an image onto itself. If the image is chosen as the output, as can be done in the dialog, its content is lost, and the answer is the same as after success. | `pack.rs`: the output is truncated before the source is opened, so packing an image onto itself empties it, and success is shown | `C101_directory_partial`: C101. If a directory that does not contain the output can be packed, and no write fails, then the output is an image of the directory. `C101_image_partial`: C101, images. If an image elsewhere can be packed and the last write does not fail, then the output holds the same tree. |
| C102 | `C102_image_lost_false`: C102 is false: the image is lost. An image `g.iso` that holds a file `g.iso`, unpacked into the folder it is in, overwrites itself; where files are cloned by the host it is empty afterwards. | `unpack.rs`: as C86, an image can be overwritten by an entry of its own name | `C102_unpacked_partial`: C102. Unpacking an image that was packed from a source, into a place where nothing is, gives the tree of the source; nothing changes outside, and the image is kept. What is missing from C102 are places that are not fresh: see `C102_image_lost_false`. |
| C103 | `C103_in_folder_false`: C103 is false. The user chooses a folder for the output, but whatever happens, nothing changes in this folder. | `compress.rs`: the chosen folder is used as the name of the output, so the parts are written beside the folder and never into it | `C103_parts_beside_partial`: C103, what happens instead. A directory that packs is compressed into parts beside the chosen folder, named after the folder; the parts hold the image that packing makes, encoded, and nothing else changes. |
| C104 | `C104_large_false`: C104 is false for large trees. When 42949673 entries are unpacked, the bar is empty in the end. | `packing.rs`, `unpacking.rs`: `100 * progress` wraps around for more than 42949672 entries | `C104_pack_partial`: C104, the page "Pack". The directory that is packed has `n` entries, and `100 * n` fits in 32 bits: then the bar makes sense at every moment from the choice of the output on, and is full in the end. Missing: sources with more entries (`C104_large_false`). `C104_pack_image_partial`: C104, the page "Pack", for images. The same when an image elsewhere is packed: the bar makes sense at every moment, and is full in the end. Missing: images with more entries (`C104_large_false`). `C104_unpack_partial`: C104, the page "Unpack". The image was packed from a source with `n` entries, is unpacked into a place where nothing is, and `100 * n` fits in 32 bits: then the bar makes sense at every moment from the choice of the output on, and is full in the end. Missing: images with more entries (`C104_large_false`). |
| C105 | `C105_wide_name_false`: C105 is false for images with other names. Whatever the browser refuses: if a name in the image has a character from `U+0100` on, the image is not packed, and nothing changes. Such an image is valid: the tool itself makes one from a folder with a file named `€`. | `xdvdfs-core/src/write/fs/mod.rs` (path prefix tree): an image with a name that has a character from U+0100 on cannot be packed, like C44 | `C105_image_succeeds_partial`: C105, images: success. If nothing is refused and no write fails, an image of a representable tree with names made of characters below `U+0100` is packed in the browser, and so is the image itself. Missing: other names, see `C105_wide_name_false`. |
| C108 | `C108_stale_false`: C108 is false for a folder that is not empty: a file with nothing in it does not replace a file of its name, which keeps its contents; the operation reports success. `C108_image_lost_false`: C108 is false for the folder that holds the image: an image `g.iso` with a file `g.iso` in it is replaced by that file, and the operation reports success. `C108_truncated_false`: C108 is false for an image that ends too early: it ends before the data of its only file, which is five bytes long, but it is unpacked without an error, and the file is empty. | `browser.rs`: the `continue` for empty files leaves the contents of an existing file; the image is overwritten by an entry of its own name; the slice of a truncated image is shorter without an error | `C108_merges_partial`: C108, any folder. If unpacking an image that was packed succeeds, and the image is not itself at the place of one of its entries, then every directory and every file that is not empty is in place, an empty file exists, and nothing but places of entries has changed. What is missing are the contents of empty files: see `C108_stale_false`. |
| C109 | `C109_empty_files_false`: C109 is false for empty files. When an image with an empty file in it has been unpacked, the page shows that it has finished, but that fewer entries are done than there are. | `browser.rs`: the `continue` for empty files also skips the report, so the bar never gets full | `C109_full_partial`: C109, success. When an image that was packed, with no empty file in it, has been unpacked, the page shows that all its entries are done. Missing: empty files, see `C109_empty_files_false`, and more than 42949672 entries. |
| C110 | `C110_small_file_false`: C110 is false: an image with a file that is not empty and smaller than a sector is never compressed. `C110_cut_file_false`: C110 is false: an image that ends within the last sector of one of its files is never compressed. `C110_leftover_false`: C110, all or nothing is false. When the device is full, compressing ends with an error, and an empty part is left behind. | `xdvdfs.rs`: copying a sector of a file shorter than a sector panics (as in C40), and an image that ends within the last sector of one of its files is never compressed; `ciso.rs`: the parts are created before the data is read, and an error leaves them behind, empty | `C110_image_partial`: C110 for images whose files are empty, or at least a sector long and in the image to the end of their last sector (partial). Missing: smaller files, see `C110_small_file_false`, and images that end within the last sector of a file, see `C110_cut_file_false`. If compressing such an image succeeds, the parts hold an encoded image that holds the tree and the contents of the source; nothing else has changed. `C110_image_succeeds_partial`: C110, success (partial): such an image is compressed, if its names and tables can be written again, nothing is refused, no write fails and no part would replace a folder. `C110_error_partial`: C110 is all or nothing, for what was there before (partial). Missing: after an error, new empty parts may be left behind, see `C110_leftover_false`. If compressing ends with an error, everything that was there is unchanged, parts of an earlier run included, and what is new are empty parts. |
| C111 | `C111_unlisted_false`: C111 is false: a folder that cannot be listed. If the browser does not list the folder, the job dies, no error is shown, no button can be clicked, and nothing can happen on the page any more. | `fs/mod.rs`: `WebFileSystem::new` unwraps, so that a folder that cannot be listed leaves the page locked without an error |  |
| C112 | `C112_status_false`: C112 is false: the status. Whatever the image contains, and whatever happens: if the command forks and ends by itself, its status is 0. `C112_bad_image_false`: C112 is false: images that cannot be opened. The command succeeds, nobody killed a process, and the image is not mounted: it never is. `C112_early_false`: C112 is false: when the command ends. Even for an image that can be opened the command can end, with success, before the image is mounted. | `daemonize.rs`: the parent exits with status 0 whatever it reads from the pipe, also when the image cannot be opened, and the child reports before it mounts | `C112_mounts_partial`: C112 (partial: the parent waits until the image has been opened). Missing: that a failure is reported, and that the image is mounted, see `C112_bad_image_false` and `C112_early_false`. If the image can be opened and mounted and nobody kills a process, then, when the command ends, its status is 0 and the image has been mounted, or mounting it is the next thing the other process does. |
| C113 | `C113_hostile_false`: C113 is false of images from elsewhere: there is an image that can be mounted, and listing its root kills the program; and there is an image that can be mounted, and the program never answers a lookup in its root, nor anything after it. | `read.rs`: on a crafted image one listing panics (C12) and ends the program, and one lookup never ends (C10) | `C113_any_image_partial`: C113 (partial: images from elsewhere). Missing: lookups and listings can fail to return, and listings can kill the program, see `C113_hostile_false`. For every image that can be mounted, after every history of requests: the numbers given to entries have not run out; requests other than lookups and listings are answered; and a request of the kernel that kills the program is a listing of a table that cannot be scanned without a panic (C12 says which). |
| C116 | `C116_large_false`: C116 is false for large images. When 42949673 sectors, about 82 GiB, were compressed, the bar is empty in the end. | `compress.rs`: the percentage is computed in 32 bits, which wraps around for images of more than 42949672 sectors (about 82 GiB, far more than a disc holds) | `C116_bar_partial`: C116 for images of less than 42949673 sectors (partial). Missing: larger images, for which `C116_large_false` shows that the bar is wrong. Whatever was reported before, from the moment the compressor says that there are `n` sectors the page shows how many of them are done, of `n`, and the bar shows the percentage. `C116_full_partial`: C116, the end (partial, like `C116_bar_partial`). When the compressor has said that it is done and the job succeeds, the page shows that all sectors are done and a full bar, however many it had reported one by one. |
| C120 | `C120_beyond_end_false`: C120 is false beyond the end of a file of an image. If the part asked for begins inside the file and ends after it, but inside the last sector of the file, then copying succeeds and delivers as many bytes as the file has, although there are fewer: what follows the file in the image is copied too. | `write/fs/xdvdfs.rs`: the size is limited by the length of the file, but not by what is left of it after the offset, so that a part that ends beyond the end of the file brings bytes that do not belong to it |  |
| C121 | `C121_other_volume_false`: C121 is false where images are looked for: errors count as the absence of a volume there, so that when the sector of one volume cannot be read, another volume is opened and no error is reported. | `blockdev.rs:159-168`: while the volume is looked for, an error counts as its absence, so that an error at the first volume of a disc can open another one; and extracting by a duplicated handle does not notice the end of the image (C66) | `C121_cut_file_partial`: C121, the command line: a reading command on the beginning of an image file prints the same as on the whole image and ends in the same way, or it reports an error. What is missing from C121 are images with several volumes: see `C121_other_volume_false`. `C121_cut_unpack_partial`: C121, extraction: unpacking the beginning of an image file, where the handle of the image cannot be duplicated, does the same as unpacking the whole image, or it reports an error. For the other way of extracting see `C66_unpacked_complete_false`. `C121_cut_copyout_partial`: The same for a single file or directory. |
| C123 | `C123_info_false`: C123 is false for `info`: on a directory with more than 4096 entries the command panics, or prints for some entry a child offset that is not the one its link designates. | `cmd_info.rs:44-57`: child offsets are computed in 16 bits (C59) | `C123_info_partial`: C123, `info` (part): without a path the command prints the volume with the place of the root directory; if no directory table is larger than 64 KiB, it prints for `/` a true listing and for an entry the entry truly, followed, for a directory, by a true listing of it; for any other path it prints nothing and fails. |
| C124 | `C124_md5_directory_false`: C124 is false: no line `md5` prints for a directory has the path of an entry of a subdirectory of it. `C124_md5_root_false`: C124 is false for the root: `md5` fails if it is given the path `/`, which is how `ls` and `info` name the root. | `cmd_md5.rs:44`: paths of the listing begin with a slash already, so that the path of an entry of a subdirectory is printed with two slashes; `read.rs` `walk_path` rejects `/`, and `md5` has no case for it as `ls` and `info` have | `C124_md5_directory_partial`: C124 (part): `md5` of a directory, named in any letter case, succeeds. It prints one line for every entry at and below the directory, with the hash of its content if it is a file. The path of an entry of the directory itself is the path given, a slash and its name; in the path of any other entry, two slashes follow the path given. |
| C127 | `C127_false`: C127 in full is false: the result in the partition need not be what packing into a file of its own gives; the disc image becomes longer by as much as lies in front of the partition. | `blockdev.rs:207-209`: `len` of the wrapper is the length of the whole disc, and the padding is written there, counted from the partition: the disc becomes longer by the offset of the partition | `C127_pack_into_partition_partial`: C127: packing into a partition of a disc ends as packing into a file of its own ends, reports the same, leaves what is in front of the partition as it was, and puts into the partition what the file would contain, whatever fails. Missing for the full property: the partition may be followed by zeros, as many as there are bytes in front of it. |
| C128 | `C128_false`: C128 in full is false: what is returned is the position in the disc, not in the partition, and a seek to before the beginning of the partition succeeds. | `blockdev.rs:217-224`: only positions from the start are translated, returned positions never are, and relative seeks can leave the partition at the front | `C128_seek_in_partition_partial`: C128: a seek in a partition takes the cursor to the byte of the partition that a seek in a file of its own would take it to, whenever that is possible. Missing for the full property: the position that is returned, and refusals. |
| C130 | `C130_unpack_again_false`: C130 is false: unpacking an image a second time into the same place, which then holds exactly the tree, fails when the tree contains a directory. | `cmd_unpack.rs:35`: `create_dir` fails for a directory that exists, so a tree with a directory cannot be unpacked twice into the same place, and an interrupted unpack cannot be repeated | `C130_unpack_over_existing_partial`: C130: unpacking a packed image into a place that can be reached succeeds exactly when nothing stands in the way of the tree. Then the whole tree is there, files of the tree have been replaced, and all other files have been kept. Missing for the full property: places that contain a directory of the tree. |
| C131 | `C131_repack_loses_attributes_false`: C131 is false for images with other attributes: an image with the time stamp 5 and a read-only file `a` repacks successfully; in the new image the time stamp is 0 and the file is not read-only. | the entries a source lists carry name, kind and length only; `dirtab.rs:74-84` sets the directory or the archive bit and nothing else, and the descriptor is made with the time stamp 0 (`img.rs`: "FIXME: Set timestamp"), so repacking an image with read-only or hidden files or a time stamp loses them | `C131_repack_attributes_partial`: C131 for repacking an image with the attributes and the time stamp this program writes: they are kept. Every entry of the source is found in the new image under its path, in any letter case, with its name and its attributes. Missing: images with other attributes or a time stamp, see `C131_repack_loses_attributes_false`. |
| C132 | `C132_bare_name_false`: C132 is false for a file that is given by its name only: `build-image xdvdfs.toml` fails, in every directory and for every specification, although `build-image ./xdvdfs.toml` is fine with it. The specification `b` of the second part maps `a` to `x`. `C132_no_name_false`: C132 is false for `.` and other sources that do not end in a name: without an output path nothing can be built from them, whatever the directory and the rules; but in the same directory it works without the argument. | `Path::parent` of a bare name is the empty path, which cannot be listed, so `build-image xdvdfs.toml` always fails (`cmd_build_image.rs:147-152`); `.` and `..` have no file name, so the default output is the directory itself and cannot be opened (`cmd_build_image.rs:206`, `img.rs:93-107`) | `C132_arguments_partial`: C132. What `build-image` does depends on what its arguments name, and not on how they are written: relative or absolute, with or without slashes at the end, through `.` and `..`, from any working directory. It does what it does with the paths they name (first part), so that two ways of writing the same arguments have the same effect (second part). Partial: the source has to be named by its name, unless no name for the output is derived from it; and a file as the source has to be given with its directory. Both are needed: see the next theorems. |
| C133 | `C133_read_error_false`: C133 is false of iterators when a read fails: the iteration ends like one that is complete, although an entry is missing; and when the iterator is asked again it delivers an entry a second time, and the one that is missing never. | `Iterator::next` turns errors into `None` (`read.rs:86-88`), so a loop over a directory of which a sector cannot be read ends without an error; the position is moved before the sector is read (`read.rs:19-34`), so asking again delivers the entries of the previous sector again and never those of the failed one | `C133_iteration_partial`: C133. Iterating over a directory delivers its entries in the order of a scan, and never anything else: whatever reads fail, what is delivered before the first `None` is a part of the listing from its start. If no read fails, it is the whole listing, and `None` is delivered from then on. Partial: a read that fails ends the iteration like the end of the directory does; see the next theorem. |
| C134 | `C134_repack_differs_false`: C134 is false of larger directories: an image with four files whose repacked image is another one. | entries are stored in the pre-order of a tree that depends on the order of insertion, and repacking inserts them in the stored order; from four entries on this can give another tree, so repacking changes the order (files inserted as c, b, d, a are stored as c, b, a, d and repacked as b, a, c, d) | `C134_repack_identical_partial`: C134, repacking. If no directory has more than three entries, then repacking an image made by `pack` gives the same image, byte for byte. Missing: larger directories, see `C134_repack_differs_false`. |
| C135 | `C135_absent_false`: C135 is false in general: in a directory with the one entry `b`, whose missing children are marked with `0xffff` (which the listing takes for missing), looking up `a` fails with an error other than `DoesNotExist`. `C135_found_is_listed_false`: C135 is false for directories of more than 262140 bytes: here `a` is found but not listed. | the listing takes a link 0xffff for a missing child but the search follows it: a missing name is then reported with another error (SizeOutOfBounds), and in a directory of more than 262140 bytes an entry may be found that is not listed | `C135_found_is_listed_partial`: C135 (partial: directories of at most 262140 bytes). On any image, an entry that is found in a directory is in the listing of the directory, if the directory can be listed. Missing: larger directories, see `C135_found_is_listed_false`. `C135_absent_partial`: C135 (partial: missing children are marked with 0). If the links of a directory form a search tree, a name that is not listed is reported as missing. Missing: the mark `0xffff`, see `C135_absent_false`. `C135_path_found_is_listed_partial`: C135 (partial: directories of at most 262140 bytes; paths). On any image that can be listed as a whole, what is found under a path is in the listing, under this path ignoring ASCII case. `C135_path_absent_partial`: C135 (partial: missing children are marked with 0; paths). If all directories of an image are search trees of at most 262140 bytes, a path that is not in the listing is reported as missing. |
| C137 | `C137_entry_lost_false`: C137 is false in general: this image lists the files `a` and `b`, repacking it succeeds, and the new image has no `b`. The entry of `b` is stored behind a gap in the table; the links lead to it, but repacking takes the gap for the end of the sector. `C137_entry_appears_false`: C137 is false in general: this image lists only the file `a`, repacking it succeeds, and the new image also lists `b`, whose entry is stored in the table but no link leads to it. | listing follows the links, repacking scans the table: an entry stored behind a gap (0xff) inside a sector is listed but lost by a successful repack, and an entry that is stored without a link to it is not listed but appears in the repacked image | `C137_repack_keeps_listing_partial`: C137 (partial: in every directory, the links lead to exactly the stored entries). If the whole image can be listed and its files can be read, and repacking it succeeds, then the new image lists the same paths with the same kinds, sizes and contents. Missing: other images, see `C137_entry_lost_false` and `C137_entry_appears_false`. |
| C147 | `C147_long_buffer_false`: C147 is false: in any image, a file that does not end where the image ends and a buffer that is longer than it by a byte. The byte of the buffer after the file is overwritten with the byte of the image that follows the file. | a buffer longer than a non-empty file is filled with the bytes of the image that follow the file, or the read fails where the image ends | `C147_buffer_partial`: C147 (partial: buffers that are not longer than the file, and empty files). Missing: longer buffers, for which the property is false (`C147_long_buffer_false`). A file that can be read as a whole can be read into a buffer, and gives the same bytes. `C147_packed_partial`: C147 (partial, for packed images). Missing: longer buffers. Every file of a packed directory is found, and reading it into a buffer that is not longer puts its first bytes there. |
| C148 | `C148_bar_false`: C148 is false in the desktop version. A directory with `n` entries is packed on one tab while an image is unpacked on another. All reports of both jobs reach both pages: if the image's first entry is reported after all of those of the directory, the page "Pack" shows that `n + 1` of `n` entries are done. | `xdvdfs-web/src/ops/tauri.js:6-8`, `:19-21`, `:32-38`: in the desktop version all jobs listen to the same events of the window, so the progress bar of one page counts the reports of jobs of other pages (e.g. `n + 1` of `n` entries done) | `C148_desktop_partial`: C148, the desktop, for one job at a time (partial). If no two jobs of the application run when one of them reports, then in the desktop version the pages do not disturb each other, either. Missing: other jobs that run, see `C148_bar_false`. |
| C150 | `C150_ls_false`: C150 is false for names with line breaks: there are two sources, one with two files and one with a single file, such that both can be packed and `ls /` prints the same for the two images. | names are printed as they are, also with line breaks in them: `ls` prints the same for a file named `a<newline>b` and for two files `a` and `b` (`C150_ls_false`); for names without line breaks, and slashes in the case of `tree`, it is proved for all images | `C150_ls_partial`: C150 for `ls` (part): if two listings, of any two images, print the same text, and the names have no line break, then the same names were listed, in the same order. `C150_tree_partial`: C150 for `tree` (part): if `tree` prints the same text for any two images, and the names in them are plain, then it found the same: the same directories, and the same files with the same sizes, in the same order. `C150_packed_partial`: C150 for `tree` of packed images (part): if `tree` prints the same text for the images packed from two sources, and the names in them are plain, then the sources have the same directories, and the same files with the same sizes. `C150_info_partial`: C150 for `info` (part): if `info` prints the same text for any two images, and the names have no line break, then it found the same: the same volume information, or the same entries with the same locations, sizes, links and attributes. |
| C151 | `C151_order_false`: C151 is false without these conditions: the same two files, one of them empty, listed in the one order and in the other, give images of different lengths. | an empty file gets a sector that nothing is written to, so the image may end before it: an empty file and one of 30 sectors give 96 sectors in the one order and 64 in the other (`C151_order_false`); the bounds hold for all trees, and they coincide if every table fits into one sector and no file is empty | `C151_length_partial`: C151: if the entries of every directory fit into one sector and no file is empty, then the tree determines the length. |

Other defects found while modelling, each visible in the model:

* `find_dirent` does not treat the link `0xffff` as "none", `walk_dirent_tree` does.
* `AvlTree::swap_backing_elements` exchanges a left child and its right sibling wrongly
  (`C19_swap_siblings_latent`); the only caller never asks for that.
* The number of bytes a copy reports is ignored by `create_xdvdfs_image`: a source that delivers
  less than it listed is packed without an error (most theorems assume `FaithfulTo`; C141 says what such an image holds).
* Unpacking an image with an empty root does not create the destination directory.
* The checksum of an image in which two entries have the same slash path depends on their order.
* `lookup` of a missing name in the mounted file system answers `EIO`, not `ENOENT`; reading a
  directory other than the root returns the bytes of its table.
* `build-image` accepts the option `-O`/`--output` of image specifications and ignores it; the third and later `:`-separated parts of a `-m` rule are dropped.
* `build-image` with the bare name of a specification file in the current directory looks for its source in the empty path
  and fails (C132).

## 6. Axioms of each property theorem

Output of `#print axioms` for every theorem named in `MANIFEST.json`:

* no axioms: `C07_offset_translation`, `C15_mem_read_never_panics_false`.
* `propext`: `C57_create_args_partial`, `C57_create_args_false`, `C60_base_of_append`, `C60_suffix_of_extension`, `C60_printing`, `C60_no_empty_component`, `C68_substitution_false`, `C97_root_false`, `C98_crash_false`, `C98_one_job_false`, `C98_finished_false`, `C99_crash_false`, `C116_large_false`, `C128_false`, `C149_only_file`.
* `Quot.sound`, `propext`: `C01_header_roundtrip_bytes`, `C04_compare_eq_iff`, `C04_compare_lt_iff`, `C04_compare_total_order`, `C05_region_offset`, `C06_read_volume_total`, `C08_reader_never_panics`, `C09_walk_path_never_panics_partial`, `C10_walk_terminates_false`, `C10_walk_terminates_partial`, `C10_find_terminates_partial`, `C12_scan_never_panics_false`, `C12_scan_never_panics_partial`, `C13_read_all_exact`, `C14_read_offset_result`, `C14_read_offset_in_file_false`, `C19_swap_siblings_latent`, `C38_source_scanned`, `C43_names_false`, `C46_stays_below_partial`, `C46_unpack_contained_partial`, `C51_patterns_partial`, `C51_patterns_false`, `C51_exactly`, `C53_resume_false`, `C56_host_copy`, `C57_create_args_iff`, `C58_old_overwritten_false`, `C59_link_partial`, `C60_suffix_result`, `C60_print_parse`, `C63_buffer_unnoticed`, `C66_unpacked_complete_false`, `C69_mapped_files_false`, `C74_source_unchanged`, `C74_default_output`, `C74_arguments_partial`, `C80_repeated_pattern_false`, `C81_source_kept_partial`, `C83_options_exactly`, `C83_missing_source_partial`, `C83_missing_source_false`, `C84_rules_false`, `C91_source_kept_partial`, `C91_output_outside_partial`, `C93_not_an_image`, `C94_default_output_partial`, `C94_no_name_false`, `C95_directory_part`, `C97_safe`, `C97_choices`, `C97_usable`, `C97_outcome`, `C98_partial`, `C99_one_job_partial`, `C99_safe_partial`, `C100_pack_false`, `C100_missing_false`, `C100_unpack_false`, `C100_compress_false`, `C101_only_output`, `C101_own_output_false`, `C103_in_folder_false`, `C103_like_tool`, `C104_large_false`, `C106_all_or_nothing`, `C106_refused`, `C108_contained`, `C108_truncated_false`, `C110_leftover_false`, `C111_pack`, `C111_unlisted_false`, `C111_compress`, `C112_status_false`, `C112_parent_killed`, `C112_serves_image`, `C113_hostile_false`, `C114_root`, `C115_extract_stops`, `C116_bar_exactly`, `C116_full_iff`, `C116_bar_partial`, `C116_full_partial`, `C120_host`, `C120_browser`, `C120_host_buffer`, `C120_browser_buffer`, `C121_operations`, `C122_pack`, `C122_repack`, `C122_repack_file`, `C122_compress`, `C127_pack_into_partition_partial`, `C128_seek_in_partition_partial`, `C128_exactly`, `C132_slashes`, `C133_exactly`, `C133_iteration_partial`, `C133_read_error_false`, `C135_found_has_name`, `C135_found_is_listed_partial`, `C135_listed_is_found`, `C135_absent_partial`, `C135_path_found_is_listed_partial`, `C135_path_absent_partial`, `C135_absent_false`, `C136_letter_case`, `C136_leading_slashes`, `C136_trailing_slash`, `C147_buffer_partial`, `C147_exactly`, `C148_acts`, `C149_build`, `C149_refused`, `C150_ls_partial`.
* `Classical.choice`, `Quot.sound`, `propext`: `C01_header_roundtrip`, `C01_header_layout`, `C02_volume_new_roundtrip`, `C02_volume_roundtrip_bytes`, `C02_volume_valid_iff`, `C03_decode_is_windows1252`, `C03_name_roundtrip`, `C03_name_encoding_fails_iff`, `C06_read_volume_iff`, `C07_offset_first_valid`, `C07_offset_none`, `C09_walk_path_never_panics_false`, `C10_walk_finishes_iff`, `C10_walk_hangs_iff`, `C10_find_hangs_iff`, `C10_find_terminates_false`, `C11_scan_terminates`, `C12_scan_exactly`, `C14_read_offset_iff`, `C14_read_offset_in_file_partial`, `C14_read_offset_prefix_partial`, `C15_mem_read_partial`, `C16_insert_is_set`, `C16_duplicate_changes_nothing`, `C17_balanced_search_tree`, `C18_logarithmic_lookup`, `C19_reorder_preorder`, `C20_avl_never_panics`, `C21_layout`, `C22_size_agrees`, `C23_lookup`, `C24_listing`, `C25_scan_agrees`, `C26_allocations_adjacent`, `C26_allocations_disjoint`, `C26_allocation_succeeds_iff`, `C27_writes_disjoint`, `C28_files_read_back`, `C29_listing_is_source`, `C30_absent_paths`, `C31_duplicates_rejected`, `C32_unrepresentable_rejected`, `C33_representable_tree_packs`, `C33_representable_tree_packs_few`, `C34_packing_returns`, `C35_length_multiple`, `C36_interrupted_tool`, `C36_interrupted_pack`, `C37_progress_reports`, `C39_compress_view`, `C39_compress_view_whole`, `C39_compress_returns`, `C39_compress_succeeds`, `C40_small_file_panics`, `C40_compress_from_image_false`, `C40_cut_file_false`, `C40_compress_from_image_partial`, `C40_readable_iff`, `C41_index_is_map`, `C41_insert_changes_nothing_else`, `C42_iteration_complete`, `C43_names_partial`, `C43_names_iff`, `C44_repack_preserves`, `C44_repack_crash`, `C44_repack_of_packed`, `C44_repack_succeeds_partial`, `C44_wide_name_fails`, `C44_repack_succeeds_false`, `C44_repack_iff`, `C45_unpack_restores`, `C46_absolute_false`, `C46_unpack_contained_false`, `C47_checksum_contents`, `C47_checksum_packed`, `C47_checksum_repacked`, `C47_last_entry`, `C48_inputs_differ_partial`, `C48_inputs_differ_false`, `C49_remap_precedence`, `C50_listing_copy_agree`, `C50_dump_returns`, `C50_packed_overlay`, `C52_inode_numbers`, `C52_root_number`, `C53_resume_partial`, `C53_call_succeeds`, `C53_listing_ends`, `C53_call_iff`, `C54_one_inode_false`, `C54_one_inode_partial`, `C55_mounted_read_partial`, `C55_past_end_false`, `C55_mounted_read_iff`, `C56_chunked_copy_exact`, `C56_failed_copy_contained`, `C56_success_is_complete`, `C56_std_copy_count`, `C58_kept_without_delete`, `C58_rewrite_partial`, `C58_output_complete_or_unreadable`, `C58_delete_false`, `C58_same_name_false`, `C59_info_exactly`, `C59_info_partial`, `C59_info_false`, `C61_valid_image_repacks_partial`, `C61_long_name_false`, `C62_short_reads_false`, `C62_short_reads_partial`, `C62_exactly`, `C63_complete_partial`, `C63_complete_false`, `C63_unreadable_false`, `C64_truncated_source_detected_partial`, `C64_truncated_source_accepted_false`, `C64_truncated_result`, `C65_copyout_file`, `C65_copyout_dir`, `C66_unpacked_complete_partial`, `C66_unpack_exactly`, `C67_md5_all`, `C67_md5_file`, `C68_substitution_partial`, `C68_any_numbers`, `C69_mapped_files_partial`, `C69_exactly`, `C70_mount_shows_tree`, `C71_read_only`, `C72_mount_options`, `C72_rejects_unknown`, `C73_rewrite_destination_partial`, `C73_rewrite_destination_false`, `C73_exactly`, `C74_dotdot_false`, `C74_arguments_exactly`, `C75_tree`, `C76_ls`, `C77_pack_unpack_identity`, `C78_special_refused`, `C79_identical_iff`, `C79_reproducible_partial`, `C79_reproducible_false`, `C80_spec_equivalent_partial`, `C80_output_ignored_false`, `C81_source_overwritten_false`, `C82_dry_run_agrees`, `C84_rules_partial`, `C84_rules_understood`, `C85_create_partial`, `C85_create_false`, `C85_last_wins`, `C86_image_kept_partial`, `C86_image_kept_false`, `C86_exactly`, `C87_extract_partial`, `C87_extract_false`, `C88_default_partial`, `C88_default_false`, `C88_no_name_panics`, `C89_buffer_iff_partial`, `C89_buffer_image`, `C89_zeroed_buffer`, `C89_large_enough_false`, `C90_host_to_buffer_false`, `C90_directories_partial`, `C91_source_kept_false`, `C91_directory_exactly`, `C92_compressed_image`, `C92_reads_back`, `C92_compress_succeeds`, `C93_unpackable_dir`, `C94_no_name_panics`, `C95_parts_opened`, `C95_opened_partial`, `C95_stale_part_false`, `C96_small_file_false`, `C96_cut_file_false`, `C96_compressed_image_partial`, `C96_compress_succeeds_partial`, `C96_compress_iff`, `C101_directory_partial`, `C101_complete_or_unreadable`, `C101_image_partial`, `C102_unpacked_partial`, `C102_image_lost_false`, `C103_parts_beside_partial`, `C104_pack_partial`, `C104_pack_image_partial`, `C104_unpack_partial`, `C105_folder`, `C105_image`, `C105_like_tool`, `C105_image_succeeds_partial`, `C105_wide_name_false`, `C105_image_iff`, `C107_reproducible`, `C108_merges_partial`, `C108_restores`, `C108_succeeds`, `C108_stale_false`, `C108_image_lost_false`, `C109_sense`, `C109_full_partial`, `C109_empty_files_false`, `C109_exactly`, `C110_folder`, `C110_like_tool`, `C110_small_file_false`, `C110_cut_file_false`, `C110_image_partial`, `C110_image_succeeds_partial`, `C110_image_iff`, `C110_contained`, `C110_error_partial`, `C111_unpack`, `C112_bad_image_false`, `C112_early_false`, `C112_mounts_partial`, `C112_alone`, `C112_returns`, `C112_arguments`, `C113_packed_answers`, `C113_packed_serves`, `C113_any_image_partial`, `C114_default_output`, `C114_never_input`, `C115_extract_succeeds`, `C117_whole_disc`, `C117_compressed`, `C118_checksum_command`, `C118_same_contents`, `C119_list_mode`, `C120_overlay`, `C120_image`, `C120_beyond_end_false`, `C120_image_buffer`, `C120_image_exactly`, `C121_commands`, `C121_cut_image`, `C121_cut_file_partial`, `C121_cut_unpack_partial`, `C121_cut_copyout_partial`, `C121_other_volume_false`, `C122_repack_holds`, `C123_ls`, `C123_tree`, `C123_info_partial`, `C123_info_false`, `C123_md5_all`, `C123_md5_file`, `C124_md5_directory_partial`, `C124_md5_directory_false`, `C124_md5_root_false`, `C125_compact_layout`, `C126_descriptor`, `C126_nothing_else`, `C127_partition_holds_tree`, `C127_false`, `C129_unpack_failing_host`, `C130_success_needs_room`, `C130_unpack_over_existing_partial`, `C130_unpack_again_false`, `C131_packed_attributes`, `C131_repack_attributes_partial`, `C131_repack_loses_attributes_false`, `C131_repack_exactly`, `C132_arguments_partial`, `C132_bare_name_false`, `C132_no_name_false`, `C133_packed_directory`, `C134_repack_identical_iff`, `C134_determined`, `C134_repack_identical_partial`, `C134_repack_differs_false`, `C135_path_listed_is_found`, `C135_found_is_listed_false`, `C137_repack_keeps_listing_partial`, `C137_entry_lost_false`, `C137_entry_appears_false`, `C138_packed_well_formed`, `C138_repacked_well_formed`, `C139_changes_stay_local`, `C139_patch_in_place`, `C140_slack_ignored`, `C140_repack_drops_slack`, `C140_around`, `C140_old_contents`, `C141_changing_directory`, `C141_short_files`, `C141_short_tree`, `C142_image_determines_tree`, `C142_same_image_iff`, `C142_same_directory`, `C143_same_listings`, `C143_copy_checksum`, `C143_copy_image`, `C143_pack_unpack_pack`, `C144_packs_iff`, `C144_directory_limit`, `C145_error_is_true`, `C145_refusal`, `C145_only_reason`, `C145_duplicates_named`, `C145_pack_command`, `C146_untouched`, `C146_backup`, `C147_packed_partial`, `C147_long_buffer_false`, `C148_pages`, `C148_browser`, `C148_desktop_partial`, `C148_one_job`, `C148_bar_false`, `C148_one_dialog`, `C149_in_place`, `C150_tree_partial`, `C150_packed_partial`, `C150_info_partial`, `C150_ls_false`, `C151_length_between`, `C151_length_partial`, `C151_order_false`.
