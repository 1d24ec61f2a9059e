{
 "claims": [
  {
   "property": "C01",
   "status": "proved",
   "theorems": [
    "Xdvdfs.C01_header_roundtrip",
    "Xdvdfs.C01_header_roundtrip_bytes",
    "Xdvdfs.C01_header_layout"
   ],
   "note": ""
  },
  {
   "property": "C02",
   "status": "proved",
   "theorems": [
    "Xdvdfs.C02_volume_new_roundtrip",
    "Xdvdfs.C02_volume_roundtrip_bytes",
    "Xdvdfs.C02_volume_valid_iff"
   ],
   "note": ""
  },
  {
   "property": "C03",
   "status": "proved",
   "theorems": [
    "Xdvdfs.C03_decode_is_windows1252",
    "Xdvdfs.C03_name_roundtrip",
    "Xdvdfs.C03_name_encoding_fails_iff"
   ],
   "note": ""
  },
  {
   "property": "C04",
   "status": "proved",
   "theorems": [
    "Xdvdfs.C04_compare_eq_iff",
    "Xdvdfs.C04_compare_lt_iff",
    "Xdvdfs.C04_compare_total_order"
   ],
   "note": ""
  },
  {
   "property": "C05",
   "status": "proved",
   "theorems": [
    "Xdvdfs.C05_region_offset"
   ],
   "note": ""
  },
  {
   "property": "C06",
   "status": "proved",
   "theorems": [
    "Xdvdfs.C06_read_volume_iff",
    "Xdvdfs.C06_read_volume_total"
   ],
   "note": ""
  },
  {
   "property": "C07",
   "status": "proved",
   "theorems": [
    "Xdvdfs.C07_offset_first_valid",
    "Xdvdfs.C07_offset_none",
    "Xdvdfs.C07_offset_translation"
   ],
   "note": ""
  },
  {
   "property": "C08",
   "status": "proved",
   "theorems": [
    "Xdvdfs.C08_reader_never_panics"
   ],
   "note": ""
  },
  {
   "property": "C09",
   "status": "partial",
   "theorems": [
    "Xdvdfs.C09_walk_path_never_panics_partial",
    "Xdvdfs.C09_walk_path_never_panics_false"
   ],
   "note": "C09_walk_path_never_panics_partial: C09 (partial: exact set of panicking paths). Missing: C09 itself is false, see `C09_walk_path_never_panics_false`. On any device whose reads return, looking up a path panics exactly when the path consists of two or more slashes and nothing else. C09_walk_path_never_panics_false: C09 is false: looking up `\"//\"` panics on every image."
  },
  {
   "property": "C10",
   "status": "partial",
   "theorems": [
    "Xdvdfs.Props.C10_walk_finishes_iff",
    "Xdvdfs.Props.C10_walk_hangs_iff",
    "Xdvdfs.Props.C10_find_hangs_iff",
    "Xdvdfs.C10_walk_terminates_false",
    "Xdvdfs.C10_find_terminates_false",
    "Xdvdfs.C10_walk_terminates_partial",
    "Xdvdfs.C10_find_terminates_partial"
   ],
   "note": "C10_walk_terminates_false: C10 is false (listing): on this image, listing the table never finishes. C10_find_terminates_false: C10 is false (lookup): on the same image, searching `a` never finishes. C10_walk_terminates_partial: C10 (partial: tables without link cycles). Missing: images with cyclic links, for which the property is false. On any device whose reads return, listing a table whose links are acyclic finishes, and gives the same outcome from some amount of fuel on. C10_find_terminates_partial: C10 (partial: tables without link cycles, not larger than 262140 bytes). Missing: cyclic tables. Searching any name finishes."
  },
  {
   "property": "C11",
   "status": "proved",
   "theorems": [
    "Xdvdfs.C11_scan_terminates"
   ],
   "note": ""
  },
  {
   "property": "C12",
   "status": "partial",
   "theorems": [
    "Xdvdfs.C12_scan_never_panics_false",
    "Xdvdfs.C12_scan_never_panics_partial",
    "Xdvdfs.Props.C12_scan_exactly"
   ],
   "note": "C12_scan_never_panics_false: C12 is false: scanning this sector panics (assertion at `read.rs:66`). C12_scan_never_panics_partial: C12 (partial: no name crosses a sector end). Missing: images in which an entry's name runs past the end of its sector, for which the property is false. If every sector the table covers contains no such entry, scanning never panics."
  },
  {
   "property": "C13",
   "status": "proved",
   "theorems": [
    "Xdvdfs.C13_read_all_exact"
   ],
   "note": ""
  },
  {
   "property": "C14",
   "status": "partial",
   "theorems": [
    "Xdvdfs.Props.C14_read_offset_result",
    "Xdvdfs.Props.C14_read_offset_iff",
    "Xdvdfs.C14_read_offset_in_file_false",
    "Xdvdfs.C14_read_offset_in_file_partial",
    "Xdvdfs.C14_read_offset_prefix_partial"
   ],
   "note": "C14_read_offset_in_file_false: C14 is false: in the image `1..8` holding a 4-byte file at its start, reading 4 bytes of the file at offset 2 returns two bytes that do not belong to it. C14_read_offset_in_file_partial: C14 (partial: requests inside the file are exact). Missing: requests that reach past the end of the file, for which the property is false. A non-empty request lying inside a file whose bytes lie inside the image returns exactly the requested file bytes. C14_read_offset_prefix_partial: C14 (partial: the returned bytes start correctly). Whenever a request at an offset inside the file succeeds, the part of the result before the end of the file is correct; what is wrong in the failing case is that more bytes follow."
  },
  {
   "property": "C15",
   "status": "partial",
   "theorems": [
    "Xdvdfs.C15_mem_read_never_panics_false",
    "Xdvdfs.C15_mem_read_partial"
   ],
   "note": "C15_mem_read_never_panics_false: C15 is false: reading two bytes at offset 2 of a three-byte slice panics. C15_mem_read_partial: C15 (partial: exact set of panicking requests). Missing: requests that start inside the slice and reach past its end, for which the property is false. All other requests return the bytes or `OutOfBounds`."
  },
  {
   "property": "C16",
   "status": "proved",
   "theorems": [
    "Xdvdfs.Props.C16_insert_is_set",
    "Xdvdfs.Props.C16_duplicate_changes_nothing"
   ],
   "note": ""
  },
  {
   "property": "C17",
   "status": "proved",
   "theorems": [
    "Xdvdfs.Props.C17_balanced_search_tree"
   ],
   "note": ""
  },
  {
   "property": "C18",
   "status": "proved",
   "theorems": [
    "Xdvdfs.Props.C18_logarithmic_lookup"
   ],
   "note": ""
  },
  {
   "property": "C19",
   "status": "proved",
   "theorems": [
    "Xdvdfs.Props.C19_reorder_preorder",
    "Xdvdfs.Props.C19_swap_siblings_latent"
   ],
   "note": ""
  },
  {
   "property": "C20",
   "status": "proved",
   "theorems": [
    "Xdvdfs.Props.C20_avl_never_panics"
   ],
   "note": ""
  },
  {
   "property": "C21",
   "status": "proved",
   "theorems": [
    "Xdvdfs.Props.C21_layout"
   ],
   "note": ""
  },
  {
   "property": "C22",
   "status": "proved",
   "theorems": [
    "Xdvdfs.Props.C22_size_agrees"
   ],
   "note": ""
  },
  {
   "property": "C23",
   "status": "proved",
   "theorems": [
    "Xdvdfs.Props.C23_lookup"
   ],
   "note": ""
  },
  {
   "property": "C24",
   "status": "proved",
   "theorems": [
    "Xdvdfs.Props.C24_listing"
   ],
   "note": ""
  },
  {
   "property": "C25",
   "status": "proved",
   "theorems": [
    "Xdvdfs.Props.C25_scan_agrees"
   ],
   "note": ""
  },
  {
   "property": "C26",
   "status": "proved",
   "theorems": [
    "Xdvdfs.Props.C26_allocations_adjacent",
    "Xdvdfs.Props.C26_allocations_disjoint",
    "Xdvdfs.Props.C26_allocation_succeeds_iff"
   ],
   "note": ""
  },
  {
   "property": "C27",
   "status": "proved",
   "theorems": [
    "Xdvdfs.Props.C27_writes_disjoint"
   ],
   "note": ""
  },
  {
   "property": "C28",
   "status": "proved",
   "theorems": [
    "Xdvdfs.Props.C28_files_read_back"
   ],
   "note": ""
  },
  {
   "property": "C29",
   "status": "proved",
   "theorems": [
    "Xdvdfs.Props.C29_listing_is_source"
   ],
   "note": ""
  },
  {
   "property": "C30",
   "status": "proved",
   "theorems": [
    "Xdvdfs.Props.C30_absent_paths"
   ],
   "note": ""
  },
  {
   "property": "C31",
   "status": "proved",
   "theorems": [
    "Xdvdfs.Props.C31_duplicates_rejected"
   ],
   "note": ""
  },
  {
   "property": "C32",
   "status": "proved",
   "theorems": [
    "Xdvdfs.Props.C32_unrepresentable_rejected"
   ],
   "note": ""
  },
  {
   "property": "C33",
   "status": "proved",
   "theorems": [
    "Xdvdfs.Props.C33_representable_tree_packs",
    "Xdvdfs.Props.C33_representable_tree_packs_few"
   ],
   "note": ""
  },
  {
   "property": "C34",
   "status": "proved",
   "theorems": [
    "Xdvdfs.Props.C34_packing_returns"
   ],
   "note": ""
  },
  {
   "property": "C35",
   "status": "proved",
   "theorems": [
    "Xdvdfs.Props.C35_length_multiple"
   ],
   "note": ""
  },
  {
   "property": "C36",
   "status": "proved",
   "theorems": [
    "Xdvdfs.Props.C36_interrupted_tool",
    "Xdvdfs.Props.C36_interrupted_pack"
   ],
   "note": ""
  },
  {
   "property": "C37",
   "status": "proved",
   "theorems": [
    "Xdvdfs.Props.C37_progress_reports"
   ],
   "note": ""
  },
  {
   "property": "C38",
   "status": "proved",
   "theorems": [
    "Xdvdfs.Props.C38_source_scanned"
   ],
   "note": ""
  },
  {
   "property": "C39",
   "status": "proved",
   "theorems": [
    "Xdvdfs.Props.C39_compress_view",
    "Xdvdfs.Props.C39_compress_view_whole",
    "Xdvdfs.Props.C39_compress_returns",
    "Xdvdfs.Props.C39_compress_succeeds"
   ],
   "note": ""
  },
  {
   "property": "C40",
   "status": "partial",
   "theorems": [
    "Xdvdfs.Props.C40_small_file_panics",
    "Xdvdfs.Props.C40_compress_from_image_false",
    "Xdvdfs.Props.C40_cut_file_false",
    "Xdvdfs.Props.C40_compress_from_image_partial",
    "Xdvdfs.Props.C40_readable_iff"
   ],
   "note": "C40_small_file_panics: C40 is false: whenever an image contains a file that is not empty and smaller than a sector, and the image is packed for compression, reading one of the resulting sectors panics. C40_compress_from_image_false: The hypotheses hold for the sample, so compressing the image of the sample panics. C40_cut_file_false: C40 is false: whenever an image ends within the last sector of one of its files, and the image is packed for compression, one of the resulting sectors cannot be read. C40_compress_from_image_partial: C40 for images whose files are empty or at least a sector long, and have their last sector in the image to its end: every sector can be read, and the compressed image holds the tree of the source. Missing: files smaller than a sector, and images that end within the last sector of a file, for which `C40_small_file_panics` and `C40_cut_file_false` show the claim to be false."
  },
  {
   "property": "C41",
   "status": "proved",
   "theorems": [
    "Xdvdfs.Props.C41_index_is_map",
    "Xdvdfs.Props.C41_insert_changes_nothing_else"
   ],
   "note": ""
  },
  {
   "property": "C42",
   "status": "proved",
   "theorems": [
    "Xdvdfs.Props.C42_iteration_complete"
   ],
   "note": ""
  },
  {
   "property": "C43",
   "status": "partial",
   "theorems": [
    "Xdvdfs.Props.C43_names_false",
    "Xdvdfs.Props.C43_names_partial",
    "Xdvdfs.Props.C43_names_iff"
   ],
   "note": "C43_names_false: C43 is false: a name that a directory entry can carry (the single byte `0x80`, the euro sign) panics on insertion and on lookup. C43_names_partial: C43, for names without a byte between `0x80` and `0x9f`: insertion and lookup always return."
  },
  {
   "property": "C44",
   "status": "partial",
   "theorems": [
    "Xdvdfs.Props.C44_repack_preserves",
    "Xdvdfs.Props.C44_repack_crash",
    "Xdvdfs.Props.C44_repack_of_packed",
    "Xdvdfs.Props.C44_repack_succeeds_partial",
    "Xdvdfs.Props.C44_wide_name_fails",
    "Xdvdfs.Props.C44_repack_succeeds_false",
    "Xdvdfs.Props.C44_repack_iff"
   ],
   "note": "C44_repack_succeeds_partial: C44, success: an image packed from a representable source tree whose names are made of characters below `U+0100` repacks successfully. Missing: other names, see `C44_repack_succeeds_false`. C44_wide_name_fails: C44, failure: an image with a name that contains a character above `U+00FF` never repacks. C44_repack_succeeds_false: Without the condition on names C44 is false: the tool itself packs a file named `\u20ac`, but cannot repack the image it wrote."
  },
  {
   "property": "C45",
   "status": "proved",
   "theorems": [
    "Xdvdfs.Props.C45_unpack_restores"
   ],
   "note": ""
  },
  {
   "property": "C46",
   "status": "partial",
   "theorems": [
    "Xdvdfs.Props.C46_stays_below_partial",
    "Xdvdfs.Props.C46_absolute_false",
    "Xdvdfs.Props.C46_unpack_contained_partial",
    "Xdvdfs.Props.C46_unpack_contained_false"
   ],
   "note": "C46_stays_below_partial: C46 for images whose names do not lead out of a directory: a name may contain slashes, but is then not absolute and has no component `..`. Whatever else the image contains, and whatever faults occur, unpacking changes nothing outside the destination, except that missing directories on the way to it may be created. The name `..` itself needs no exception. `C46_unpack_contained_false` is about the name `../x`, and `C46_absolute_false` about `/x`. C46_absolute_false: C46 is false: the tool packs a file named `/x`, and unpacking the image into the existing empty directory `out` succeeds and writes the file `/x` of the host. C46_unpack_contained_partial: C46 for images without a slash in a name: whatever else the image contains, and whatever faults occur, unpacking changes nothing outside the destination except that missing directories on the way to it may be created. What is missing from C46 is that names with slashes are rejected: see `C46_unpack_contained_false`. C46_unpack_contained_false: C46 is false: the tool packs a file named `../x`, and unpacking the image into the existing empty directory `out` succeeds and writes the file `x` beside `out`."
  },
  {
   "property": "C47",
   "status": "proved",
   "theorems": [
    "Xdvdfs.Props.C47_checksum_contents",
    "Xdvdfs.Props.C47_checksum_packed",
    "Xdvdfs.Props.C47_checksum_repacked",
    "Xdvdfs.Props.C47_last_entry"
   ],
   "note": ""
  },
  {
   "property": "C48",
   "status": "partial",
   "theorems": [
    "Xdvdfs.Props.C48_inputs_differ_partial",
    "Xdvdfs.Props.C48_inputs_differ_false"
   ],
   "note": "C48_inputs_differ_partial: C48 for images of the same shape: if two images have the same paths, kinds and file sizes, and the bytes fed to the hash are equal, then the images have the same contents. What is missing from C48 is that images which differ in paths or sizes feed different bytes: see `C48_inputs_differ_false`. C48_inputs_differ_false: C48 is false: two sources with the same two files, whose contents are exchanged, pack to images with the same checksum, whatever the hash function."
  },
  {
   "property": "C49",
   "status": "proved",
   "theorems": [
    "Xdvdfs.Props.C49_remap_precedence"
   ],
   "note": ""
  },
  {
   "property": "C50",
   "status": "proved",
   "theorems": [
    "Xdvdfs.Props.C50_listing_copy_agree",
    "Xdvdfs.Props.C50_dump_returns",
    "Xdvdfs.Props.C50_packed_overlay"
   ],
   "note": ""
  },
  {
   "property": "C51",
   "status": "partial",
   "theorems": [
    "Xdvdfs.Props.C51_patterns_partial",
    "Xdvdfs.Props.C51_patterns_false",
    "Xdvdfs.Props.C51_exactly"
   ],
   "note": "C51_patterns_partial: C51, for patterns without a brace inside braces and with numbers below `2^64`: a pattern is accepted exactly if it consists of characters and of digits in braces, and then yields the numbers in the braces, in order; it is rejected exactly if a brace is left open or if braces contain a character that is not a digit, and the position reported for that is the position of the first such character. The general statement is false, see `C51_patterns_false`. C51_patterns_false: C51 is false in general: `{1{2}` has a brace whose content is not a number, and is accepted, with the number 12; and a number of 2^64 is an arithmetic overflow."
  },
  {
   "property": "C52",
   "status": "proved",
   "theorems": [
    "Xdvdfs.Props.C52_inode_numbers",
    "Xdvdfs.Props.C52_root_number"
   ],
   "note": ""
  },
  {
   "property": "C53",
   "status": "partial",
   "theorems": [
    "Xdvdfs.Props.C53_resume_partial",
    "Xdvdfs.Props.C53_call_succeeds",
    "Xdvdfs.Props.C53_resume_false",
    "Xdvdfs.Props.C53_listing_ends",
    "Xdvdfs.Props.C53_call_iff"
   ],
   "note": "C53_resume_partial: C53, for listings in which no call fails: however a client splits reading a directory over calls, with whatever buffers and whatever other requests in between, it receives `.`, `..` and then every entry of the directory exactly once and in order. What is missing: a call can fail, see `C53_resume_false`. C53_resume_false: C53 is false in general: if the first buffer has room for one record only, the call fails instead of delivering `.` alone, for every directory of every image."
  },
  {
   "property": "C54",
   "status": "partial",
   "theorems": [
    "Xdvdfs.Props.C54_one_inode_false",
    "Xdvdfs.Props.C54_one_inode_partial"
   ],
   "note": "C54_one_inode_false: C54 is false, for every mounted image and every directory whose table is not in sector 0 (as in every packed image): the number that looking up a name reports never appears in a listing of the directory. C54_one_inode_partial: C54, what does hold: looking up the same name again, in any letter case and at any later time, reports the same number, and so does listing the same directory again, record by record. What is missing: the two kinds of numbers do not agree, see `C54_one_inode_false`."
  },
  {
   "property": "C55",
   "status": "partial",
   "theorems": [
    "Xdvdfs.Props.C55_mounted_read_partial",
    "Xdvdfs.Props.C55_past_end_false",
    "Xdvdfs.Props.C55_mounted_read_iff"
   ],
   "note": "C55_mounted_read_partial: C55, for offsets before the end: a request inside the file returns exactly the requested bytes; a request that crosses the end either fails or starts with all the remaining bytes; and reading an empty file returns no data. What is missing: see `C55_past_end_false`. C55_past_end_false: C55 is false for every file that is not empty: reading at or past its end fails instead of returning no data, and a request that starts after the first byte and crosses the end never returns just the remaining bytes."
  },
  {
   "property": "C56",
   "status": "proved",
   "theorems": [
    "Xdvdfs.Props.C56_chunked_copy_exact",
    "Xdvdfs.Props.C56_failed_copy_contained",
    "Xdvdfs.Props.C56_success_is_complete",
    "Xdvdfs.Props.C56_std_copy_count",
    "Xdvdfs.Props.C56_host_copy"
   ],
   "note": ""
  },
  {
   "property": "C57",
   "status": "partial",
   "theorems": [
    "Xdvdfs.Props.C57_create_args_partial",
    "Xdvdfs.Props.C57_create_args_false",
    "Xdvdfs.Props.C57_create_args_iff"
   ],
   "note": "C57_create_args_partial: C57 (part): every documented argument list in which only the first task names its output file is parsed into exactly its tasks. C57_create_args_false: C57 is false: an argument list in which a later task names its output file is always rejected."
  },
  {
   "property": "C58",
   "status": "partial",
   "theorems": [
    "Xdvdfs.Props.C58_kept_without_delete",
    "Xdvdfs.Props.C58_rewrite_partial",
    "Xdvdfs.Props.C58_output_complete_or_unreadable",
    "Xdvdfs.Props.C58_delete_false",
    "Xdvdfs.Props.C58_old_overwritten_false",
    "Xdvdfs.Props.C58_same_name_false"
   ],
   "note": "C58_rewrite_partial: C58 (part): if the images do not get in each other's way, and no error is lost when an output is closed, then at every moment of a rewrite, with or without `-D`, whatever fails, every readable image still has its bytes under its own name or under the `.old` name, or the new image is complete. C58_delete_false: C58 is false with `-D`: whenever a rewrite of one image in place succeeds, there is a failing write, the one that empties the buffer when the output is closed, with which the command reports success, the original is deleted, and the new image is not complete. C58_old_overwritten_false: C58 is false when one of the images is called what an earlier one is renamed to: rewriting the first destroys the second before anything is written, whatever the options. C58_same_name_false: C58 is false for images of the same name in different directories: after a successful `-r -D -d DIR a/x.iso b/x.iso`, without any failing write, neither the bytes of the first image nor an image with its tree exists anywhere."
  },
  {
   "property": "C59",
   "status": "partial",
   "theorems": [
    "Xdvdfs.Props.C59_info_exactly",
    "Xdvdfs.Props.C59_link_partial",
    "Xdvdfs.Props.C59_info_partial",
    "Xdvdfs.Props.C59_info_false"
   ],
   "note": "C59_link_partial: C59, arithmetic: a link is printed as the offset it designates if it is below `2^14`; otherwise the tool panics, or prints another offset. C59_info_partial: C59 (part): on a packed image whose directory tables all stay within 64 KiB, `info` on the root prints a true listing; on an entry it prints the entry truly, followed, for a directory, by a true listing of it. C59_info_false: C59 is false: on every packed image, `info` on a directory with more than 4096 entries panics, or prints for some entry a child offset that is not the one its link designates."
  },
  {
   "property": "C60",
   "status": "proved",
   "theorems": [
    "Xdvdfs.Props.C60_base_of_append",
    "Xdvdfs.Props.C60_suffix_of_extension",
    "Xdvdfs.Props.C60_suffix_result",
    "Xdvdfs.Props.C60_printing",
    "Xdvdfs.Props.C60_print_parse",
    "Xdvdfs.Props.C60_no_empty_component"
   ],
   "note": ""
  },
  {
   "property": "C61",
   "status": "partial",
   "theorems": [
    "Xdvdfs.Props.C61_valid_image_repacks_partial",
    "Xdvdfs.Props.C61_long_name_false"
   ],
   "note": "C61_valid_image_repacks_partial: C61 for images whose names are made of characters below `U+0100` and take at most 255 bytes in UTF-8: if the directories can be listed and hold distinct names, the files can be read, and the sizes are within bounds, repacking succeeds. Missing: the other names, see `C61_long_name_false` and `C44_repack_succeeds_false`. C61_long_name_false: C61 is false: an image with one empty file, whose name of 200 characters is legal on disk, opens and lists, and its file reads as empty, but repacking it fails."
  },
  {
   "property": "C62",
   "status": "partial",
   "theorems": [
    "Xdvdfs.Props.C62_short_reads_false",
    "Xdvdfs.Props.C62_short_reads_partial",
    "Xdvdfs.Props.C62_exactly"
   ],
   "note": "C62_short_reads_false: C62: the property is false. The sector is filled by a single `read`, and what it did not deliver is replaced by zeros without an error: with a file system that delivers one byte per read, the sample file `A/c` with content `1, 2, 3` is compressed as `1, 0, 0`. C62_short_reads_partial: C62, what does hold: if every read of a sector delivers the whole sector (or the rest of the file), the view is the image. Missing: reads that deliver less."
  },
  {
   "property": "C63",
   "status": "partial",
   "theorems": [
    "Xdvdfs.Props.C63_complete_partial",
    "Xdvdfs.Props.C63_buffer_unnoticed",
    "Xdvdfs.Props.C63_complete_false",
    "Xdvdfs.Props.C63_unreadable_false"
   ],
   "note": "C63_complete_partial: C63 (part): if the tool reports success and every byte given to the buffer reached the file, then the file is byte for byte the one that packing straight into a file without faults produces, so everything proved about those holds for it; in particular it holds the source tree, and its length is a multiple of 64 KiB. C63_complete_false: C63 is false: for every source that packs, with any buffer of at least 64 KiB, there is a fault for which the tool reports success although the file does not hold the tree, or does not have its full length: the error of the last flush, made when the buffer is dropped, is ignored. C63_unreadable_false: C63 is false: packing a directory with one file of 61440 bytes through the tool's buffer, there is a fault for which the tool reports success and leaves a file of the right length that is not an image: it does not open."
  },
  {
   "property": "C64",
   "status": "partial",
   "theorems": [
    "Xdvdfs.Props.C64_truncated_source_detected_partial",
    "Xdvdfs.Props.C64_truncated_source_accepted_false",
    "Xdvdfs.Props.C64_truncated_result"
   ],
   "note": "C64_truncated_source_detected_partial: C64 for the chunked copier on a file: a repack that succeeds has read every file of the source completely, so the new image holds the tree and the contents of the source; no assumption that the files of the source can be read. Missing: the copier based on `std::io::copy`, which the command line tool uses and for which `C64_truncated_source_accepted_false` shows the claim to be false. C64_truncated_source_accepted_false: C64 is false for the copier of the command line tool: an image whose only file lies behind its end, so that reading the file fails, repacks successfully, whatever the sizes of the pieces in which `std::io::copy` transfers data."
  },
  {
   "property": "C65",
   "status": "proved",
   "theorems": [
    "Xdvdfs.Props.C65_copyout_file",
    "Xdvdfs.Props.C65_copyout_dir"
   ],
   "note": ""
  },
  {
   "property": "C66",
   "status": "partial",
   "theorems": [
    "Xdvdfs.Props.C66_unpacked_complete_partial",
    "Xdvdfs.Props.C66_unpacked_complete_false",
    "Xdvdfs.Props.C66_unpack_exactly"
   ],
   "note": "C66_unpacked_complete_partial: C66 when the handle of the image cannot be duplicated: if unpacking any image into a fresh place succeeds, without faults of the host, and the listed names are host names that lead to different places, then every listed file has been written with the size and the data the image gives for it. What is missing from C66 is the faster path the tool normally takes: see `C66_unpacked_complete_false`. C66_unpacked_complete_false: C66 is false when the handle can be duplicated: an image that ends before the data of its only file (5 bytes long) is unpacked without an error, and the file is created empty."
  },
  {
   "property": "C67",
   "status": "proved",
   "theorems": [
    "Xdvdfs.Props.C67_md5_all",
    "Xdvdfs.Props.C67_md5_file"
   ],
   "note": ""
  },
  {
   "property": "C68",
   "status": "partial",
   "theorems": [
    "Xdvdfs.Props.C68_substitution_partial",
    "Xdvdfs.Props.C68_substitution_false",
    "Xdvdfs.Props.C68_any_numbers"
   ],
   "note": "C68_substitution_partial: C68, for patterns whose numbers are written without leading zeros and captured texts without opening brace: the image path of a host path is given by the pattern with every `{n}` replaced by the text captured under `n` (nothing if there is none), with leading dots removed, split into its non-empty components, and followed by the components of the host path below the part that was matched. The general statement is false, see `C68_substitution_false`. C68_substitution_false: C68 is false in general: `{01}` is accepted as the number 1 and then not replaced, and text that was substituted is substituted again if it looks like `{1}`."
  },
  {
   "property": "C69",
   "status": "partial",
   "theorems": [
    "Xdvdfs.Props.C69_mapped_files_partial",
    "Xdvdfs.Props.C69_mapped_files_false",
    "Xdvdfs.Props.C69_exactly"
   ],
   "note": "C69_mapped_files_partial: C69, when no file is mapped to the root, to the same place as another entry of the host, or to a place below which another entry is mapped: every file of the host to which the rules apply is listed by the overlay at the place where the rules map it, with its length, and copying it copies that file. The general statement is false, see `C69_mapped_files_false`. C69_mapped_files_false: C69 is false in general: of two files mapped to the same place only the first is kept, without an error."
  },
  {
   "property": "C70",
   "status": "proved",
   "theorems": [
    "Xdvdfs.Props.C70_mount_shows_tree"
   ],
   "note": ""
  },
  {
   "property": "C71",
   "status": "proved",
   "theorems": [
    "Xdvdfs.Props.C71_read_only"
   ],
   "note": ""
  },
  {
   "property": "C72",
   "status": "proved",
   "theorems": [
    "Xdvdfs.Props.C72_mount_options",
    "Xdvdfs.Props.C72_rejects_unknown"
   ],
   "note": ""
  },
  {
   "property": "C73",
   "status": "partial",
   "theorems": [
    "Xdvdfs.Props.C73_rewrite_destination_partial",
    "Xdvdfs.Props.C73_rewrite_destination_false",
    "Xdvdfs.Props.C73_exactly"
   ],
   "note": "C73_rewrite_destination_partial: C73 (part): after a successful rewrite without `-d`, or with `-d /`, the new image is where it is expected, and complete. C73_rewrite_destination_false: C73 is false: with `-d DIR` for any directory but the root, no file in `DIR` is created or changed, whatever happens, except images that are themselves there; a successful rewrite leaves its output beside `DIR`."
  },
  {
   "property": "C74",
   "status": "partial",
   "theorems": [
    "Xdvdfs.Props.C74_source_unchanged",
    "Xdvdfs.Props.C74_default_output",
    "Xdvdfs.Props.C74_arguments_partial",
    "Xdvdfs.Props.C74_dotdot_false",
    "Xdvdfs.Props.C74_arguments_exactly"
   ],
   "note": "C74_arguments_partial: C74 for the arguments of `pack` as they are typed (partial: what was in the source). Missing: that nothing is added to the source if the output is given with `..` in its path and does not exist yet, which is false, see `C74_dotdot_false`. At every moment, whatever fails, everything that was in the source is as it was, at most one file of the host has changed, the output, and if its path contains no `..`, nothing was added to the source either. C74_dotdot_false: C74 is false: `pack /s ../s/o`, run in `/w`, succeeds, and creates its output inside the source `/s`; the image holds a file `o` that was not in the source."
  },
  {
   "property": "C75",
   "status": "proved",
   "theorems": [
    "Xdvdfs.Props.C75_tree"
   ],
   "note": ""
  },
  {
   "property": "C76",
   "status": "proved",
   "theorems": [
    "Xdvdfs.Props.C76_ls"
   ],
   "note": ""
  },
  {
   "property": "C77",
   "status": "proved",
   "theorems": [
    "Xdvdfs.Props.C77_pack_unpack_identity"
   ],
   "note": ""
  },
  {
   "property": "C78",
   "status": "proved",
   "theorems": [
    "Xdvdfs.Props.C78_special_refused"
   ],
   "note": ""
  },
  {
   "property": "C79",
   "status": "partial",
   "theorems": [
    "Xdvdfs.Props.C79_identical_iff",
    "Xdvdfs.Props.C79_reproducible_partial",
    "Xdvdfs.Props.C79_reproducible_false"
   ],
   "note": "C79_reproducible_partial: C79 (partial: the contents). Missing: equal bytes, which is false, see `C79_reproducible_false`. Two packs of the same directory, whatever the order in which the host lists directories, give images with the same checksum, for every hash function. C79_reproducible_false: C79 is false: two packs of the same directory, with two files, give different images if the host lists the directory in different orders."
  },
  {
   "property": "C80",
   "status": "partial",
   "theorems": [
    "Xdvdfs.Props.C80_spec_equivalent_partial",
    "Xdvdfs.Props.C80_repeated_pattern_false",
    "Xdvdfs.Props.C80_output_ignored_false"
   ],
   "note": "C80_spec_equivalent_partial: C80 (partial: different patterns, and no `-O`). Missing: rules that repeat a pattern, and `-O`, for both of which the property is false, see `C80_repeated_pattern_false` and `C80_output_ignored_false`. Let `spec` be what `image-spec from` makes of some `-m` options, stored in the file from which `build-image` takes its specification. Then `build-image` does exactly the same with the specification as with the options; and if `image-spec from` refuses the options, so does `build-image`. C80_repeated_pattern_false: C80 is false for rules that repeat a pattern: with `-m a:x -m '!a' -m a:y`, `build-image` maps `a` to `y`, but with the specification that `image-spec from` makes of these options it maps nothing, because the table of rules keeps the place of the first `a:x` and the value of the last `a:y`, so that the exclusion comes last. C80_output_ignored_false: C80 is false for `-O`: with `-m a:x -O o`, `build-image` ignores `-O`: nothing is created at `o` in the source directory; with the specification that `image-spec from` makes of the same options, the image is created there."
  },
  {
   "property": "C81",
   "status": "partial",
   "theorems": [
    "Xdvdfs.Props.C81_source_kept_partial",
    "Xdvdfs.Props.C81_source_overwritten_false"
   ],
   "note": "C81_source_kept_partial: C81 (partial: at most one file changes). Missing: that this file is not one of the source, which is false, see `C81_source_overwritten_false`. At every moment of a run of `build-image`, and after it, the host is as it was before except for one file, which is the output path if one was given; a dry run changes nothing. If neither an output path is given nor the specification names one, nothing in the directory that is mapped changes. C81_source_overwritten_false: C81 is false: an output path in the source is accepted, and the file of the source at that path is replaced by the image."
  },
  {
   "property": "C82",
   "status": "proved",
   "theorems": [
    "Xdvdfs.Props.C82_dry_run_agrees"
   ],
   "note": ""
  },
  {
   "property": "C83",
   "status": "partial",
   "theorems": [
    "Xdvdfs.Props.C83_options_exactly",
    "Xdvdfs.Props.C83_missing_source_partial",
    "Xdvdfs.Props.C83_missing_source_false"
   ],
   "note": "C83_missing_source_partial: C83 (partial: without `-m`). Missing: runs with `-m`, for which the property is false, see `C83_missing_source_false`. A run without `-m` for which there is no specification that can be read, for instance because the source path does not exist, fails and changes nothing. C83_missing_source_false: C83 is false with `-m`: for the source path `/s/z`, which does not exist, the files of `/s` are mapped."
  },
  {
   "property": "C84",
   "status": "partial",
   "theorems": [
    "Xdvdfs.Props.C84_rules_partial",
    "Xdvdfs.Props.C84_rules_false",
    "Xdvdfs.Props.C84_rules_understood"
   ],
   "note": "C84_rules_partial: C84 (partial: rules with at most one colon). Missing: rules with more colons, which are not used as written, see `C84_rules_false`. A dry run with `-m` options prints only mappings of what is in the mapped directory, to the place where the rules, read as `HOST:IMAGE`, map it; and if no file is mapped to the root or over something else, it prints one for every file that the rules map. Options without a colon that are not exclusions are refused. C84_rules_false: C84 is false for rules with more colons: `-m a:x:y` maps `a` to `x`; the rest is dropped."
  },
  {
   "property": "C85",
   "status": "partial",
   "theorems": [
    "Xdvdfs.Props.C85_create_partial",
    "Xdvdfs.Props.C85_create_false",
    "Xdvdfs.Props.C85_last_wins"
   ],
   "note": "C85_create_partial: C85 for tasks whose outputs differ (partial). Missing: that tasks without a FILE have outputs that differ, which is false, see `C85_create_false`. If create mode reports success, the outputs were flushed when they were closed, and no output is in a directory that is packed, then each task has left an image of its directory at its output, and nothing else has changed. Whatever the order in which the host lists directories. C85_create_false: C85 is false: `-c /g.1 -c /g.2` reports success, but both images go to `/g.iso`, so that the second replaces the first: no file but `/g.iso` has changed, and that is an image of `/g.2`, not of `/g.1`."
  },
  {
   "property": "C86",
   "status": "partial",
   "theorems": [
    "Xdvdfs.Props.C86_image_kept_partial",
    "Xdvdfs.Props.C86_image_kept_false",
    "Xdvdfs.Props.C86_exactly"
   ],
   "note": "C86_image_kept_partial: C86 for an image outside the destination and without a slash in a name: whatever the image contains and whatever faults occur, the image file is the same afterwards, and the command does what it does on a copy of the image that nothing can change, so that what C45 and C46 say holds. What is missing from C86 is an image inside the destination: see `C86_image_kept_false`. C86_image_kept_false: C86 is false: an image `g.iso` in the working directory that contains a file `g.iso` is itself overwritten by `unpack g.iso .`. Where files are cloned by the host the command even reports success, and the image is empty."
  },
  {
   "property": "C87",
   "status": "partial",
   "theorems": [
    "Xdvdfs.Props.C87_extract_partial",
    "Xdvdfs.Props.C87_extract_false"
   ],
   "note": "C87_extract_partial: C87 for images that do not get in each other's way: if every image was packed from some source, the destinations are fresh, none of them is inside another and no image is inside any of them, then extract mode succeeds, the tree of each image is below its own destination, and nothing has changed outside of the destinations except that missing directories on the way to them may have been created. What is missing from C87 are images with the same destination: see `C87_extract_false`. C87_extract_false: C87 is false: extract mode on `/a/g.iso` and `/b/g.iso` succeeds, but both go to `g` in the working directory, and the file of the first image has been replaced by that of the second."
  },
  {
   "property": "C88",
   "status": "partial",
   "theorems": [
    "Xdvdfs.Props.C88_default_partial",
    "Xdvdfs.Props.C88_default_false",
    "Xdvdfs.Props.C88_no_name_panics"
   ],
   "note": "C88_default_partial: C88 for images whose name has an extension: every path that names a file has a default destination, and if nothing with that name exists in the working directory then unpacking without a destination restores the image there and changes nothing else. What is missing from C88 are images in the working directory without an extension, and paths that name no file: see `C88_default_false`. C88_default_false: C88 is false: an image `g` in the working directory cannot be unpacked without a destination, because that would be `g` as well, although the same image can be unpacked under any other name; and a path without a file name, such as `..`, makes the command panic instead of failing. C88_no_name_panics: C88, for every path, whatever is there: if it ends in a name, unpacking without a destination is the same as unpacking to some destination that depends on nothing but the name; if not, it always panics and changes nothing."
  },
  {
   "property": "C89",
   "status": "partial",
   "theorems": [
    "Xdvdfs.Props.C89_buffer_iff_partial",
    "Xdvdfs.Props.C89_buffer_image",
    "Xdvdfs.Props.C89_zeroed_buffer",
    "Xdvdfs.Props.C89_large_enough_false"
   ],
   "note": "C89_buffer_iff_partial: C89: when packing into a buffer succeeds (partial). Missing: buffers whose size is not a multiple of 64 KiB, for which it is false, see `C89_large_enough_false`. It succeeds exactly if packing into an empty file succeeds, the buffer is at least as large as that file, and the size of the buffer is a multiple of 64 KiB. C89_large_enough_false: C89 is false without the condition on the size: there is a source that packs into a file, and for every buffer that is larger than that file by one byte, packing into it fails."
  },
  {
   "property": "C90",
   "status": "partial",
   "theorems": [
    "Xdvdfs.Props.C90_host_to_buffer_false",
    "Xdvdfs.Props.C90_directories_partial"
   ],
   "note": "C90_host_to_buffer_false: C90 is false: if anywhere in a directory of the host there is a file, packing the directory into a buffer does not succeed, whatever the buffer. C90_directories_partial: C90 for directories without files (partial). Missing: directories with files, for which it is false, see `C90_host_to_buffer_false`. If the directory contains only directories, packing it into a buffer succeeds exactly if packing it into an empty file does, the buffer is at least as large as that file, and its size is a multiple of 64 KiB; and then the buffer holds the tree. (`hs`: cutting what is copied into chunks loses nothing.)"
  },
  {
   "property": "C91",
   "status": "partial",
   "theorems": [
    "Xdvdfs.Props.C91_source_kept_partial",
    "Xdvdfs.Props.C91_source_kept_false",
    "Xdvdfs.Props.C91_output_outside_partial",
    "Xdvdfs.Props.C91_directory_exactly"
   ],
   "note": "C91_source_kept_partial: C91 for paths that are typed alike (partial). Missing: a source or an output with `.` or `..`, and one that is absolute while the other is not; `C91_source_kept_false` shows that these do not hold. Whatever the outcome, `compress` changes nothing at the source or below it, if both paths are free of dots and both relative or both absolute; an image as source must not have the name of a part. C91_source_kept_false: C91 is false: in the directory `/s`, compressing `../s` writes the parts into `/s` itself. C91_output_outside_partial: C91 for an output outside of the source (partial), however the paths are typed, with dots or without, relative or absolute. Missing: an output in a directory at or below the source, see `C91_source_kept_false`, and a source that is itself called like a part of the output. Whatever the outcome, `compress` changes nothing at the source or below it."
  },
  {
   "property": "C92",
   "status": "proved",
   "theorems": [
    "Xdvdfs.Props.C92_compressed_image",
    "Xdvdfs.Props.C92_reads_back",
    "Xdvdfs.Props.C92_compress_succeeds"
   ],
   "note": ""
  },
  {
   "property": "C93",
   "status": "proved",
   "theorems": [
    "Xdvdfs.Props.C93_unpackable_dir",
    "Xdvdfs.Props.C93_not_an_image"
   ],
   "note": ""
  },
  {
   "property": "C94",
   "status": "partial",
   "theorems": [
    "Xdvdfs.Props.C94_default_output_partial",
    "Xdvdfs.Props.C94_no_name_false",
    "Xdvdfs.Props.C94_no_name_panics"
   ],
   "note": "C94_default_output_partial: C94 for sources with a name (partial). Missing: `.`, `..` and `/`, for which `C94_no_name_false` shows that the command panics. Without an output path, a directory `name` is compressed to `name.cso` in the working directory, and an image `name` to its stem with the extension `cso`. C94_no_name_false: C94 is false: without an output path, compressing `.`, `..` or `/` panics. C94_no_name_panics: C94, for every source that exists: if its path ends in a name, compressing without an output path is the same as compressing to some output path; if not, as with `.`, `..` and `/`, it always panics and changes nothing."
  },
  {
   "property": "C95",
   "status": "partial",
   "theorems": [
    "Xdvdfs.Props.C95_parts_opened",
    "Xdvdfs.Props.C95_opened_partial",
    "Xdvdfs.Props.C95_stale_part_false",
    "Xdvdfs.Props.C95_directory_part"
   ],
   "note": "C95_opened_partial: C95 where no part is left over (partial). Missing: directories with a part from an earlier run, for which `C95_stale_part_false` shows the claim to be false. If no file has the name of the next part, opening the first part gives a device that reads like the image, and the image holds what was in the directory. C95_stale_part_false: C95 is false: `/s` is compressed to `/w/o.cso` with success, into one part; opened, that part and the file that was left over are taken for parts of one image, and the decoder fails."
  },
  {
   "property": "C96",
   "status": "partial",
   "theorems": [
    "Xdvdfs.Props.C96_small_file_false",
    "Xdvdfs.Props.C96_cut_file_false",
    "Xdvdfs.Props.C96_compressed_image_partial",
    "Xdvdfs.Props.C96_compress_succeeds_partial",
    "Xdvdfs.Props.C96_compress_iff"
   ],
   "note": "C96_small_file_false: C96 is false: an image with a file that is not empty and smaller than a sector is never compressed. C96_cut_file_false: C96 is false: an image that ends within the last sector of one of its files is never compressed. C96_compressed_image_partial: C96 for images whose files are empty, or at least a sector long and in the image to the end of their last sector (partial). Missing: smaller files, see `C96_small_file_false`, and images that end within the last sector of a file, see `C96_cut_file_false`. If compressing such an image succeeds, the parts hold an encoded image that holds the tree and the contents of the source; nothing else has changed. C96_compress_succeeds_partial: C96, success: such an image is compressed, if its names and tables can be written again and nothing stands in the way of the output."
  },
  {
   "property": "C97",
   "status": "partial",
   "theorems": [
    "Xdvdfs.C97_safe",
    "Xdvdfs.C97_choices",
    "Xdvdfs.C97_usable",
    "Xdvdfs.C97_outcome",
    "Xdvdfs.C97_root_false"
   ],
   "note": "C97_root_false: C97 needs the names. In the desktop version the name of a folder is its path. Choosing the root directory crashes the page."
  },
  {
   "property": "C98",
   "status": "partial",
   "theorems": [
    "Xdvdfs.C98_crash_false",
    "Xdvdfs.C98_one_job_false",
    "Xdvdfs.C98_finished_false",
    "Xdvdfs.C98_partial"
   ],
   "note": "C98_crash_false: C98 is false: crash. While the image is compressed the buttons can be clicked. If the user chooses an input type then, and an output after the job has ended, the page crashes. C98_one_job_false: C98 is false: two jobs. While the image is compressed the same job can be started again: two jobs write the same output. C98_finished_false: C98 is false: the end of another job. With two jobs, the page says that everything is done without error while a job still runs. C98_partial: C98, the part that holds. If the user clicks no button while a job runs: the page does not crash, at most one job runs, and it works on the input and output that the page shows as selected; if no job died the page is usable whenever no job runs."
  },
  {
   "property": "C99",
   "status": "partial",
   "theorems": [
    "Xdvdfs.C99_crash_false",
    "Xdvdfs.C99_one_job_partial",
    "Xdvdfs.C99_safe_partial"
   ],
   "note": "C99_crash_false: C99 is false: crash. After an image was unpacked, the button for the output can still be clicked, but there is no input any more: choosing another folder crashes the page. The same happens after an error. C99_one_job_partial: C99, the part that holds: one job. At most one job runs; while it runs no button can be clicked and no dialog is open; if no job died, the page is usable whenever no job runs. C99_safe_partial: C99, the part that holds: no crash. If the user opens the dialog for the output only while an image is shown as selected, the page does not crash, and the job it starts works on that image."
  },
  {
   "property": "C100",
   "status": "partial",
   "theorems": [
    "Xdvdfs.Props.C100_pack_false",
    "Xdvdfs.Props.C100_missing_false",
    "Xdvdfs.Props.C100_unpack_false",
    "Xdvdfs.Props.C100_compress_false"
   ],
   "note": "C100_pack_false: C100 is false for the page \"Pack\". Whatever goes wrong while the job packs: when it answers, the page shows that it has finished, and no error. C100_missing_false: C100 is false: a failure. Packing something that does not exist leaves an empty file, and the answer is the same as after success. C100_unpack_false: C100 is false for the page \"Unpack\". C100_compress_false: C100 is false for the page \"Compress\". Here the reports of the job are arbitrary."
  },
  {
   "property": "C101",
   "status": "partial",
   "theorems": [
    "Xdvdfs.Props.C101_only_output",
    "Xdvdfs.Props.C101_directory_partial",
    "Xdvdfs.Props.C101_complete_or_unreadable",
    "Xdvdfs.Props.C101_image_partial",
    "Xdvdfs.Props.C101_own_output_false"
   ],
   "note": "C101_directory_partial: C101. If a directory that does not contain the output can be packed, and no write fails, then the output is an image of the directory. C101_image_partial: C101, images. If an image elsewhere can be packed and the last write does not fail, then the output holds the same tree. C101_own_output_false: C101 is false: packing an image onto itself. If the image is chosen as the output, as can be done in the dialog, its content is lost, and the answer is the same as after success."
  },
  {
   "property": "C102",
   "status": "partial",
   "theorems": [
    "Xdvdfs.Props.C102_unpacked_partial",
    "Xdvdfs.Props.C102_image_lost_false"
   ],
   "note": "C102_unpacked_partial: C102. Unpacking an image that was packed from a source, into a place where nothing is, gives the tree of the source; nothing changes outside, and the image is kept. What is missing from C102 are places that are not fresh: see `C102_image_lost_false`. C102_image_lost_false: C102 is false: the image is lost. An image `g.iso` that holds a file `g.iso`, unpacked into the folder it is in, overwrites itself; where files are cloned by the host it is empty afterwards."
  },
  {
   "property": "C103",
   "status": "partial",
   "theorems": [
    "Xdvdfs.Props.C103_in_folder_false",
    "Xdvdfs.Props.C103_parts_beside_partial",
    "Xdvdfs.Props.C103_like_tool"
   ],
   "note": "C103_in_folder_false: C103 is false. The user chooses a folder for the output, but whatever happens, nothing changes in this folder. C103_parts_beside_partial: C103, what happens instead. A directory that packs is compressed into parts beside the chosen folder, named after the folder; the parts hold the image that packing makes, encoded, and nothing else changes."
  },
  {
   "property": "C104",
   "status": "partial",
   "theorems": [
    "Xdvdfs.Props.C104_pack_partial",
    "Xdvdfs.Props.C104_pack_image_partial",
    "Xdvdfs.Props.C104_unpack_partial",
    "Xdvdfs.Props.C104_large_false"
   ],
   "note": "C104_pack_partial: C104, the page \"Pack\". The directory that is packed has `n` entries, and `100 * n` fits in 32 bits: then the bar makes sense at every moment from the choice of the output on, and is full in the end. Missing: sources with more entries (`C104_large_false`). C104_pack_image_partial: C104, the page \"Pack\", for images. The same when an image elsewhere is packed: the bar makes sense at every moment, and is full in the end. Missing: images with more entries (`C104_large_false`). C104_unpack_partial: C104, the page \"Unpack\". The image was packed from a source with `n` entries, is unpacked into a place where nothing is, and `100 * n` fits in 32 bits: then the bar makes sense at every moment from the choice of the output on, and is full in the end. Missing: images with more entries (`C104_large_false`). C104_large_false: C104 is false for large trees. When 42949673 entries are unpacked, the bar is empty in the end."
  },
  {
   "property": "C105",
   "status": "partial",
   "theorems": [
    "Xdvdfs.Props.C105_folder",
    "Xdvdfs.Props.C105_image",
    "Xdvdfs.Props.C105_like_tool",
    "Xdvdfs.Props.C105_image_succeeds_partial",
    "Xdvdfs.Props.C105_wide_name_false",
    "Xdvdfs.Props.C105_image_iff"
   ],
   "note": "C105_image_succeeds_partial: C105, images: success. If nothing is refused and no write fails, an image of a representable tree with names made of characters below `U+0100` is packed in the browser, and so is the image itself. Missing: other names, see `C105_wide_name_false`. C105_wide_name_false: C105 is false for images with other names. Whatever the browser refuses: if a name in the image has a character from `U+0100` on, the image is not packed, and nothing changes. Such an image is valid: the tool itself makes one from a folder with a file named `\u20ac`."
  },
  {
   "property": "C106",
   "status": "proved",
   "theorems": [
    "Xdvdfs.Props.C106_all_or_nothing",
    "Xdvdfs.Props.C106_refused"
   ],
   "note": ""
  },
  {
   "property": "C107",
   "status": "proved",
   "theorems": [
    "Xdvdfs.Props.C107_reproducible"
   ],
   "note": ""
  },
  {
   "property": "C108",
   "status": "partial",
   "theorems": [
    "Xdvdfs.Props.C108_contained",
    "Xdvdfs.Props.C108_merges_partial",
    "Xdvdfs.Props.C108_restores",
    "Xdvdfs.Props.C108_succeeds",
    "Xdvdfs.Props.C108_stale_false",
    "Xdvdfs.Props.C108_image_lost_false",
    "Xdvdfs.Props.C108_truncated_false"
   ],
   "note": "C108_merges_partial: C108, any folder. If unpacking an image that was packed succeeds, and the image is not itself at the place of one of its entries, then every directory and every file that is not empty is in place, an empty file exists, and nothing but places of entries has changed. What is missing are the contents of empty files: see `C108_stale_false`. C108_stale_false: C108 is false for a folder that is not empty: a file with nothing in it does not replace a file of its name, which keeps its contents; the operation reports success. C108_image_lost_false: C108 is false for the folder that holds the image: an image `g.iso` with a file `g.iso` in it is replaced by that file, and the operation reports success. C108_truncated_false: C108 is false for an image that ends too early: it ends before the data of its only file, which is five bytes long, but it is unpacked without an error, and the file is empty."
  },
  {
   "property": "C109",
   "status": "partial",
   "theorems": [
    "Xdvdfs.Props.C109_sense",
    "Xdvdfs.Props.C109_full_partial",
    "Xdvdfs.Props.C109_empty_files_false",
    "Xdvdfs.Props.C109_exactly"
   ],
   "note": "C109_full_partial: C109, success. When an image that was packed, with no empty file in it, has been unpacked, the page shows that all its entries are done. Missing: empty files, see `C109_empty_files_false`, and more than 42949672 entries. C109_empty_files_false: C109 is false for empty files. When an image with an empty file in it has been unpacked, the page shows that it has finished, but that fewer entries are done than there are."
  },
  {
   "property": "C110",
   "status": "partial",
   "theorems": [
    "Xdvdfs.Props.C110_folder",
    "Xdvdfs.Props.C110_like_tool",
    "Xdvdfs.Props.C110_small_file_false",
    "Xdvdfs.Props.C110_cut_file_false",
    "Xdvdfs.Props.C110_image_partial",
    "Xdvdfs.Props.C110_image_succeeds_partial",
    "Xdvdfs.Props.C110_image_iff",
    "Xdvdfs.Props.C110_contained",
    "Xdvdfs.Props.C110_error_partial",
    "Xdvdfs.Props.C110_leftover_false"
   ],
   "note": "C110_small_file_false: C110 is false: an image with a file that is not empty and smaller than a sector is never compressed. C110_cut_file_false: C110 is false: an image that ends within the last sector of one of its files is never compressed. C110_image_partial: C110 for images whose files are empty, or at least a sector long and in the image to the end of their last sector (partial). Missing: smaller files, see `C110_small_file_false`, and images that end within the last sector of a file, see `C110_cut_file_false`. If compressing such an image succeeds, the parts hold an encoded image that holds the tree and the contents of the source; nothing else has changed. C110_image_succeeds_partial: C110, success (partial): such an image is compressed, if its names and tables can be written again, nothing is refused, no write fails and no part would replace a folder. C110_error_partial: C110 is all or nothing, for what was there before (partial). Missing: after an error, new empty parts may be left behind, see `C110_leftover_false`. If compressing ends with an error, everything that was there is unchanged, parts of an earlier run included, and what is new are empty parts. C110_leftover_false: C110, all or nothing is false. When the device is full, compressing ends with an error, and an empty part is left behind."
  },
  {
   "property": "C111",
   "status": "partial",
   "theorems": [
    "Xdvdfs.Props.C111_pack",
    "Xdvdfs.Props.C111_unlisted_false",
    "Xdvdfs.Props.C111_unpack",
    "Xdvdfs.Props.C111_compress"
   ],
   "note": "C111_unlisted_false: C111 is false: a folder that cannot be listed. If the browser does not list the folder, the job dies, no error is shown, no button can be clicked, and nothing can happen on the page any more."
  },
  {
   "property": "C112",
   "status": "partial",
   "theorems": [
    "Xdvdfs.Props.C112_status_false",
    "Xdvdfs.Props.C112_bad_image_false",
    "Xdvdfs.Props.C112_early_false",
    "Xdvdfs.Props.C112_mounts_partial",
    "Xdvdfs.Props.C112_alone",
    "Xdvdfs.Props.C112_returns",
    "Xdvdfs.Props.C112_parent_killed",
    "Xdvdfs.Props.C112_arguments",
    "Xdvdfs.Props.C112_serves_image"
   ],
   "note": "C112_status_false: C112 is false: the status. Whatever the image contains, and whatever happens: if the command forks and ends by itself, its status is 0. C112_bad_image_false: C112 is false: images that cannot be opened. The command succeeds, nobody killed a process, and the image is not mounted: it never is. C112_early_false: C112 is false: when the command ends. Even for an image that can be opened the command can end, with success, before the image is mounted. C112_mounts_partial: C112 (partial: the parent waits until the image has been opened). Missing: that a failure is reported, and that the image is mounted, see `C112_bad_image_false` and `C112_early_false`. If the image can be opened and mounted and nobody kills a process, then, when the command ends, its status is 0 and the image has been mounted, or mounting it is the next thing the other process does."
  },
  {
   "property": "C113",
   "status": "partial",
   "theorems": [
    "Xdvdfs.Props.C113_packed_answers",
    "Xdvdfs.Props.C113_packed_serves",
    "Xdvdfs.Props.C113_any_image_partial",
    "Xdvdfs.Props.C113_hostile_false"
   ],
   "note": "C113_any_image_partial: C113 (partial: images from elsewhere). Missing: lookups and listings can fail to return, and listings can kill the program, see `C113_hostile_false`. For every image that can be mounted, after every history of requests: the numbers given to entries have not run out; requests other than lookups and listings are answered; and a request of the kernel that kills the program is a listing of a table that cannot be scanned without a panic (C12 says which). C113_hostile_false: C113 is false of images from elsewhere: there is an image that can be mounted, and listing its root kills the program; and there is an image that can be mounted, and the program never answers a lookup in its root, nor anything after it."
  },
  {
   "property": "C114",
   "status": "proved",
   "theorems": [
    "Xdvdfs.Props.C114_default_output",
    "Xdvdfs.Props.C114_never_input",
    "Xdvdfs.Props.C114_root"
   ],
   "note": ""
  },
  {
   "property": "C115",
   "status": "proved",
   "theorems": [
    "Xdvdfs.Props.C115_extract_stops",
    "Xdvdfs.Props.C115_extract_succeeds"
   ],
   "note": ""
  },
  {
   "property": "C116",
   "status": "partial",
   "theorems": [
    "Xdvdfs.Props.C116_bar_exactly",
    "Xdvdfs.Props.C116_full_iff",
    "Xdvdfs.Props.C116_bar_partial",
    "Xdvdfs.Props.C116_full_partial",
    "Xdvdfs.Props.C116_large_false"
   ],
   "note": "C116_bar_partial: C116 for images of less than 42949673 sectors (partial). Missing: larger images, for which `C116_large_false` shows that the bar is wrong. Whatever was reported before, from the moment the compressor says that there are `n` sectors the page shows how many of them are done, of `n`, and the bar shows the percentage. C116_full_partial: C116, the end (partial, like `C116_bar_partial`). When the compressor has said that it is done and the job succeeds, the page shows that all sectors are done and a full bar, however many it had reported one by one. C116_large_false: C116 is false for large images. When 42949673 sectors, about 82 GiB, were compressed, the bar is empty in the end."
  },
  {
   "property": "C117",
   "status": "proved",
   "theorems": [
    "Xdvdfs.Props.C117_whole_disc",
    "Xdvdfs.Props.C117_compressed"
   ],
   "note": ""
  },
  {
   "property": "C118",
   "status": "proved",
   "theorems": [
    "Xdvdfs.Props.C118_checksum_command",
    "Xdvdfs.Props.C118_same_contents"
   ],
   "note": ""
  },
  {
   "property": "C119",
   "status": "proved",
   "theorems": [
    "Xdvdfs.Props.C119_list_mode"
   ],
   "note": ""
  },
  {
   "property": "C120",
   "status": "partial",
   "theorems": [
    "Xdvdfs.Props.C120_host",
    "Xdvdfs.Props.C120_browser",
    "Xdvdfs.Props.C120_overlay",
    "Xdvdfs.Props.C120_image",
    "Xdvdfs.Props.C120_beyond_end_false",
    "Xdvdfs.Props.C120_image_buffer",
    "Xdvdfs.Props.C120_host_buffer",
    "Xdvdfs.Props.C120_browser_buffer",
    "Xdvdfs.Props.C120_image_exactly"
   ],
   "note": "C120_beyond_end_false: C120 is false beyond the end of a file of an image. If the part asked for begins inside the file and ends after it, but inside the last sector of the file, then copying succeeds and delivers as many bytes as the file has, although there are fewer: what follows the file in the image is copied too."
  },
  {
   "property": "C121",
   "status": "partial",
   "theorems": [
    "Xdvdfs.Props.C121_operations",
    "Xdvdfs.Props.C121_commands",
    "Xdvdfs.Props.C121_cut_image",
    "Xdvdfs.Props.C121_cut_file_partial",
    "Xdvdfs.Props.C121_cut_unpack_partial",
    "Xdvdfs.Props.C121_cut_copyout_partial",
    "Xdvdfs.Props.C121_other_volume_false"
   ],
   "note": "C121_cut_file_partial: C121, the command line: a reading command on the beginning of an image file prints the same as on the whole image and ends in the same way, or it reports an error. What is missing from C121 are images with several volumes: see `C121_other_volume_false`. C121_cut_unpack_partial: C121, extraction: unpacking the beginning of an image file, where the handle of the image cannot be duplicated, does the same as unpacking the whole image, or it reports an error. For the other way of extracting see `C66_unpacked_complete_false`. C121_cut_copyout_partial: The same for a single file or directory. C121_other_volume_false: C121 is false where images are looked for: errors count as the absence of a volume there, so that when the sector of one volume cannot be read, another volume is opened and no error is reported."
  },
  {
   "property": "C122",
   "status": "proved",
   "theorems": [
    "Xdvdfs.Props.C122_pack",
    "Xdvdfs.Props.C122_repack",
    "Xdvdfs.Props.C122_repack_file",
    "Xdvdfs.Props.C122_repack_holds",
    "Xdvdfs.Props.C122_compress"
   ],
   "note": ""
  },
  {
   "property": "C123",
   "status": "partial",
   "theorems": [
    "Xdvdfs.Props.C123_ls",
    "Xdvdfs.Props.C123_tree",
    "Xdvdfs.Props.C123_info_partial",
    "Xdvdfs.Props.C123_info_false",
    "Xdvdfs.Props.C123_md5_all",
    "Xdvdfs.Props.C123_md5_file"
   ],
   "note": "C123_info_partial: C123, `info` (part): without a path the command prints the volume with the place of the root directory; if no directory table is larger than 64 KiB, it prints for `/` a true listing and for an entry the entry truly, followed, for a directory, by a true listing of it; for any other path it prints nothing and fails. C123_info_false: C123 is false for `info`: on a directory with more than 4096 entries the command panics, or prints for some entry a child offset that is not the one its link designates."
  },
  {
   "property": "C124",
   "status": "partial",
   "theorems": [
    "Xdvdfs.Props.C124_md5_directory_partial",
    "Xdvdfs.Props.C124_md5_directory_false",
    "Xdvdfs.Props.C124_md5_root_false"
   ],
   "note": "C124_md5_directory_partial: C124 (part): `md5` of a directory, named in any letter case, succeeds. It prints one line for every entry at and below the directory, with the hash of its content if it is a file. The path of an entry of the directory itself is the path given, a slash and its name; in the path of any other entry, two slashes follow the path given. C124_md5_directory_false: C124 is false: no line `md5` prints for a directory has the path of an entry of a subdirectory of it. C124_md5_root_false: C124 is false for the root: `md5` fails if it is given the path `/`, which is how `ls` and `info` name the root."
  },
  {
   "property": "C125",
   "status": "proved",
   "theorems": [
    "Xdvdfs.Props.C125_compact_layout"
   ],
   "note": ""
  },
  {
   "property": "C126",
   "status": "proved",
   "theorems": [
    "Xdvdfs.Props.C126_descriptor",
    "Xdvdfs.Props.C126_nothing_else"
   ],
   "note": ""
  },
  {
   "property": "C127",
   "status": "partial",
   "theorems": [
    "Xdvdfs.Props.C127_pack_into_partition_partial",
    "Xdvdfs.Props.C127_partition_holds_tree",
    "Xdvdfs.Props.C127_false"
   ],
   "note": "C127_pack_into_partition_partial: C127: packing into a partition of a disc ends as packing into a file of its own ends, reports the same, leaves what is in front of the partition as it was, and puts into the partition what the file would contain, whatever fails. Missing for the full property: the partition may be followed by zeros, as many as there are bytes in front of it. C127_false: C127 in full is false: the result in the partition need not be what packing into a file of its own gives; the disc image becomes longer by as much as lies in front of the partition."
  },
  {
   "property": "C128",
   "status": "partial",
   "theorems": [
    "Xdvdfs.Props.C128_seek_in_partition_partial",
    "Xdvdfs.Props.C128_false",
    "Xdvdfs.Props.C128_exactly"
   ],
   "note": "C128_seek_in_partition_partial: C128: a seek in a partition takes the cursor to the byte of the partition that a seek in a file of its own would take it to, whenever that is possible. Missing for the full property: the position that is returned, and refusals. C128_false: C128 in full is false: what is returned is the position in the disc, not in the partition, and a seek to before the beginning of the partition succeeds."
  },
  {
   "property": "C129",
   "status": "proved",
   "theorems": [
    "Xdvdfs.Props.C129_unpack_failing_host"
   ],
   "note": ""
  },
  {
   "property": "C130",
   "status": "partial",
   "theorems": [
    "Xdvdfs.Props.C130_success_needs_room",
    "Xdvdfs.Props.C130_unpack_over_existing_partial",
    "Xdvdfs.Props.C130_unpack_again_false"
   ],
   "note": "C130_unpack_over_existing_partial: C130: unpacking a packed image into a place that can be reached succeeds exactly when nothing stands in the way of the tree. Then the whole tree is there, files of the tree have been replaced, and all other files have been kept. Missing for the full property: places that contain a directory of the tree. C130_unpack_again_false: C130 is false: unpacking an image a second time into the same place, which then holds exactly the tree, fails when the tree contains a directory."
  },
  {
   "property": "C131",
   "status": "partial",
   "theorems": [
    "Xdvdfs.Props.C131_packed_attributes",
    "Xdvdfs.Props.C131_repack_attributes_partial",
    "Xdvdfs.Props.C131_repack_loses_attributes_false",
    "Xdvdfs.Props.C131_repack_exactly"
   ],
   "note": "C131_repack_attributes_partial: C131 for repacking an image with the attributes and the time stamp this program writes: they are kept. Every entry of the source is found in the new image under its path, in any letter case, with its name and its attributes. Missing: images with other attributes or a time stamp, see `C131_repack_loses_attributes_false`. C131_repack_loses_attributes_false: C131 is false for images with other attributes: an image with the time stamp 5 and a read-only file `a` repacks successfully; in the new image the time stamp is 0 and the file is not read-only."
  },
  {
   "property": "C132",
   "status": "partial",
   "theorems": [
    "Xdvdfs.Props.C132_arguments_partial",
    "Xdvdfs.Props.C132_slashes",
    "Xdvdfs.Props.C132_bare_name_false",
    "Xdvdfs.Props.C132_no_name_false"
   ],
   "note": "C132_arguments_partial: C132. What `build-image` does depends on what its arguments name, and not on how they are written: relative or absolute, with or without slashes at the end, through `.` and `..`, from any working directory. It does what it does with the paths they name (first part), so that two ways of writing the same arguments have the same effect (second part). Partial: the source has to be named by its name, unless no name for the output is derived from it; and a file as the source has to be given with its directory. Both are needed: see the next theorems. C132_bare_name_false: C132 is false for a file that is given by its name only: `build-image xdvdfs.toml` fails, in every directory and for every specification, although `build-image ./xdvdfs.toml` is fine with it. The specification `b` of the second part maps `a` to `x`. C132_no_name_false: C132 is false for `.` and other sources that do not end in a name: without an output path nothing can be built from them, whatever the directory and the rules; but in the same directory it works without the argument."
  },
  {
   "property": "C133",
   "status": "partial",
   "theorems": [
    "Xdvdfs.Props.C133_exactly",
    "Xdvdfs.Props.C133_iteration_partial",
    "Xdvdfs.Props.C133_packed_directory",
    "Xdvdfs.Props.C133_read_error_false"
   ],
   "note": "C133_iteration_partial: C133. Iterating over a directory delivers its entries in the order of a scan, and never anything else: whatever reads fail, what is delivered before the first `None` is a part of the listing from its start. If no read fails, it is the whole listing, and `None` is delivered from then on. Partial: a read that fails ends the iteration like the end of the directory does; see the next theorem. C133_read_error_false: C133 is false of iterators when a read fails: the iteration ends like one that is complete, although an entry is missing; and when the iterator is asked again it delivers an entry a second time, and the one that is missing never."
  },
  {
   "property": "C134",
   "status": "partial",
   "theorems": [
    "Xdvdfs.Props.C134_repack_identical_iff",
    "Xdvdfs.Props.C134_determined",
    "Xdvdfs.Props.C134_repack_identical_partial",
    "Xdvdfs.Props.C134_repack_differs_false"
   ],
   "note": "C134_repack_identical_partial: C134, repacking. If no directory has more than three entries, then repacking an image made by `pack` gives the same image, byte for byte. Missing: larger directories, see `C134_repack_differs_false`. C134_repack_differs_false: C134 is false of larger directories: an image with four files whose repacked image is another one."
  },
  {
   "property": "C135",
   "status": "partial",
   "theorems": [
    "Xdvdfs.Props.C135_found_has_name",
    "Xdvdfs.Props.C135_found_is_listed_partial",
    "Xdvdfs.Props.C135_listed_is_found",
    "Xdvdfs.Props.C135_absent_partial",
    "Xdvdfs.Props.C135_path_found_is_listed_partial",
    "Xdvdfs.Props.C135_path_listed_is_found",
    "Xdvdfs.Props.C135_path_absent_partial",
    "Xdvdfs.Props.C135_absent_false",
    "Xdvdfs.Props.C135_found_is_listed_false"
   ],
   "note": "C135_found_is_listed_partial: C135 (partial: directories of at most 262140 bytes). On any image, an entry that is found in a directory is in the listing of the directory, if the directory can be listed. Missing: larger directories, see `C135_found_is_listed_false`. C135_absent_partial: C135 (partial: missing children are marked with 0). If the links of a directory form a search tree, a name that is not listed is reported as missing. Missing: the mark `0xffff`, see `C135_absent_false`. C135_path_found_is_listed_partial: C135 (partial: directories of at most 262140 bytes; paths). On any image that can be listed as a whole, what is found under a path is in the listing, under this path ignoring ASCII case. C135_path_absent_partial: C135 (partial: missing children are marked with 0; paths). If all directories of an image are search trees of at most 262140 bytes, a path that is not in the listing is reported as missing. C135_absent_false: C135 is false in general: in a directory with the one entry `b`, whose missing children are marked with `0xffff` (which the listing takes for missing), looking up `a` fails with an error other than `DoesNotExist`. C135_found_is_listed_false: C135 is false for directories of more than 262140 bytes: here `a` is found but not listed."
  },
  {
   "property": "C136",
   "status": "proved",
   "theorems": [
    "Xdvdfs.Props.C136_letter_case",
    "Xdvdfs.Props.C136_leading_slashes",
    "Xdvdfs.Props.C136_trailing_slash"
   ],
   "note": ""
  },
  {
   "property": "C137",
   "status": "partial",
   "theorems": [
    "Xdvdfs.Props.C137_repack_keeps_listing_partial",
    "Xdvdfs.Props.C137_entry_lost_false",
    "Xdvdfs.Props.C137_entry_appears_false"
   ],
   "note": "C137_repack_keeps_listing_partial: C137 (partial: in every directory, the links lead to exactly the stored entries). If the whole image can be listed and its files can be read, and repacking it succeeds, then the new image lists the same paths with the same kinds, sizes and contents. Missing: other images, see `C137_entry_lost_false` and `C137_entry_appears_false`. C137_entry_lost_false: C137 is false in general: this image lists the files `a` and `b`, repacking it succeeds, and the new image has no `b`. The entry of `b` is stored behind a gap in the table; the links lead to it, but repacking takes the gap for the end of the sector. C137_entry_appears_false: C137 is false in general: this image lists only the file `a`, repacking it succeeds, and the new image also lists `b`, whose entry is stored in the table but no link leads to it."
  },
  {
   "property": "C138",
   "status": "proved",
   "theorems": [
    "Xdvdfs.Props.C138_packed_well_formed",
    "Xdvdfs.Props.C138_repacked_well_formed"
   ],
   "note": ""
  },
  {
   "property": "C139",
   "status": "proved",
   "theorems": [
    "Xdvdfs.Props.C139_changes_stay_local",
    "Xdvdfs.Props.C139_patch_in_place"
   ],
   "note": ""
  },
  {
   "property": "C140",
   "status": "proved",
   "theorems": [
    "Xdvdfs.Props.C140_slack_ignored",
    "Xdvdfs.Props.C140_repack_drops_slack",
    "Xdvdfs.Props.C140_around",
    "Xdvdfs.Props.C140_old_contents"
   ],
   "note": ""
  },
  {
   "property": "C141",
   "status": "proved",
   "theorems": [
    "Xdvdfs.Props.C141_changing_directory",
    "Xdvdfs.Props.C141_short_files",
    "Xdvdfs.Props.C141_short_tree"
   ],
   "note": ""
  },
  {
   "property": "C142",
   "status": "proved",
   "theorems": [
    "Xdvdfs.Props.C142_image_determines_tree",
    "Xdvdfs.Props.C142_same_image_iff",
    "Xdvdfs.Props.C142_same_directory"
   ],
   "note": ""
  },
  {
   "property": "C143",
   "status": "proved",
   "theorems": [
    "Xdvdfs.Props.C143_same_listings",
    "Xdvdfs.Props.C143_copy_checksum",
    "Xdvdfs.Props.C143_copy_image",
    "Xdvdfs.Props.C143_pack_unpack_pack"
   ],
   "note": ""
  },
  {
   "property": "C144",
   "status": "proved",
   "theorems": [
    "Xdvdfs.Props.C144_packs_iff",
    "Xdvdfs.Props.C144_directory_limit"
   ],
   "note": ""
  },
  {
   "property": "C145",
   "status": "proved",
   "theorems": [
    "Xdvdfs.Props.C145_error_is_true",
    "Xdvdfs.Props.C145_refusal",
    "Xdvdfs.Props.C145_only_reason",
    "Xdvdfs.Props.C145_duplicates_named",
    "Xdvdfs.Props.C145_pack_command"
   ],
   "note": ""
  },
  {
   "property": "C146",
   "status": "proved",
   "theorems": [
    "Xdvdfs.Props.C146_untouched",
    "Xdvdfs.Props.C146_backup"
   ],
   "note": ""
  },
  {
   "property": "C147",
   "status": "partial",
   "theorems": [
    "Xdvdfs.Props.C147_buffer_partial",
    "Xdvdfs.Props.C147_packed_partial",
    "Xdvdfs.Props.C147_long_buffer_false",
    "Xdvdfs.Props.C147_exactly"
   ],
   "note": "C147_buffer_partial: C147 (partial: buffers that are not longer than the file, and empty files). Missing: longer buffers, for which the property is false (`C147_long_buffer_false`). A file that can be read as a whole can be read into a buffer, and gives the same bytes. C147_packed_partial: C147 (partial, for packed images). Missing: longer buffers. Every file of a packed directory is found, and reading it into a buffer that is not longer puts its first bytes there. C147_long_buffer_false: C147 is false: in any image, a file that does not end where the image ends and a buffer that is longer than it by a byte. The byte of the buffer after the file is overwritten with the byte of the image that follows the file."
  },
  {
   "property": "C148",
   "status": "partial",
   "theorems": [
    "Xdvdfs.Props.C148_pages",
    "Xdvdfs.Props.C148_browser",
    "Xdvdfs.Props.C148_desktop_partial",
    "Xdvdfs.Props.C148_one_job",
    "Xdvdfs.Props.C148_bar_false",
    "Xdvdfs.Props.C148_one_dialog",
    "Xdvdfs.Props.C148_acts"
   ],
   "note": "C148_desktop_partial: C148, the desktop, for one job at a time (partial). If no two jobs of the application run when one of them reports, then in the desktop version the pages do not disturb each other, either. Missing: other jobs that run, see `C148_bar_false`. C148_bar_false: C148 is false in the desktop version. A directory with `n` entries is packed on one tab while an image is unpacked on another. All reports of both jobs reach both pages: if the image's first entry is reported after all of those of the directory, the page \"Pack\" shows that `n + 1` of `n` entries are done."
  },
  {
   "property": "C149",
   "status": "proved",
   "theorems": [
    "Xdvdfs.Props.C149_only_file",
    "Xdvdfs.Props.C149_build",
    "Xdvdfs.Props.C149_refused",
    "Xdvdfs.Props.C149_in_place"
   ],
   "note": ""
  },
  {
   "property": "C150",
   "status": "partial",
   "theorems": [
    "Xdvdfs.Props.C150_ls_partial",
    "Xdvdfs.Props.C150_tree_partial",
    "Xdvdfs.Props.C150_packed_partial",
    "Xdvdfs.Props.C150_info_partial",
    "Xdvdfs.Props.C150_ls_false"
   ],
   "note": "C150_ls_partial: C150 for `ls` (part): if two listings, of any two images, print the same text, and the names have no line break, then the same names were listed, in the same order. C150_tree_partial: C150 for `tree` (part): if `tree` prints the same text for any two images, and the names in them are plain, then it found the same: the same directories, and the same files with the same sizes, in the same order. C150_packed_partial: C150 for `tree` of packed images (part): if `tree` prints the same text for the images packed from two sources, and the names in them are plain, then the sources have the same directories, and the same files with the same sizes. C150_info_partial: C150 for `info` (part): if `info` prints the same text for any two images, and the names have no line break, then it found the same: the same volume information, or the same entries with the same locations, sizes, links and attributes. C150_ls_false: C150 is false for names with line breaks: there are two sources, one with two files and one with a single file, such that both can be packed and `ls /` prints the same for the two images."
  },
  {
   "property": "C151",
   "status": "partial",
   "theorems": [
    "Xdvdfs.Props.C151_length_between",
    "Xdvdfs.Props.C151_length_partial",
    "Xdvdfs.Props.C151_order_false"
   ],
   "note": "C151_length_partial: C151: if the entries of every directory fit into one sector and no file is empty, then the tree determines the length. C151_order_false: C151 is false without these conditions: the same two files, one of them empty, listed in the one order and in the other, give images of different lengths."
  }
 ]
}