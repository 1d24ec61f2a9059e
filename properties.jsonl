{"id": "C01", "title": "Directory entry header codec round-trips", "statement": "Serializing any directory-entry header yields exactly 14 bytes, deserializing those bytes gives the header back, and any 14 bytes are the serialization of the header they deserialize to.", "quantifier": "all values of every header field, and all 14-byte strings", "why_tests_cant": "2^112 headers; a test samples a handful and endianness or field-order mistakes can hide behind symmetric values", "anchors": ["xdvdfs-core/src/layout.rs: DirectoryEntryDiskNode::serialize", "xdvdfs-core/src/layout.rs: DirectoryEntryDiskNode::deserialize"]}
{"id": "C02", "title": "Volume descriptor codec round-trips", "statement": "A freshly created volume descriptor serializes to exactly one 2048-byte sector, is recognised as valid when read back, and its root table region is read back unchanged; any 2048 bytes re-serialize to themselves.", "quantifier": "all root table regions and all 2048-byte sectors", "why_tests_cant": "the input space is every sector content", "anchors": ["xdvdfs-core/src/layout.rs: VolumeDescriptor::new", "xdvdfs-core/src/layout.rs: VolumeDescriptor::serialize", "xdvdfs-core/src/layout.rs: VolumeDescriptor::deserialize", "xdvdfs-core/src/layout.rs: VolumeDescriptor::is_valid"]}
{"id": "C03", "title": "File name encoding round-trips", "statement": "A file name that the packer accepts is stored as Windows-1252 bytes that decode to exactly the same name; decoding never fails on any byte string; encoding fails exactly when some character has no Windows-1252 code or the result exceeds 255 bytes.", "quantifier": "all Unicode file names and all byte strings", "why_tests_cant": "names are unbounded strings over the whole of Unicode", "anchors": ["xdvdfs-core/src/layout.rs: DirectoryEntryData::encode_name", "xdvdfs-core/src/layout.rs: DirectoryEntryNode::name_str"]}
{"id": "C04", "title": "Name comparison is a case-insensitive total order", "statement": "The comparison used for sorting and searching names is reflexive, antisymmetric up to ASCII case, transitive and total, and says Equal exactly when the names agree after ASCII upper-casing.", "quantifier": "all triples of strings", "why_tests_cant": "binary search over a non-transitive comparison fails only on rare triples", "anchors": ["xdvdfs-core/src/util.rs: cmp_ignore_case_utf8"]}
{"id": "C05", "title": "Region offsets never leave the region", "statement": "Resolving an offset in a disk region succeeds exactly when the offset is below the region size, and then yields the region start plus the offset, which never overflows 64 bits.", "quantifier": "all regions and all 64-bit offsets", "why_tests_cant": "boundary offsets across the whole u32/u64 range", "anchors": ["xdvdfs-core/src/layout.rs: DiskRegion::offset"]}
{"id": "C06", "title": "A volume is accepted exactly when both magics are present", "statement": "Opening a volume succeeds if and only if the 2048 bytes at sector 32 can be read and carry the magic string at both ends; every other outcome is the InvalidVolume error, never a panic.", "quantifier": "all block devices, including ones that fail", "why_tests_cant": "every possible device content and failure", "anchors": ["xdvdfs-core/src/read.rs: read_volume", "xdvdfs-core/src/layout.rs: VolumeDescriptor::is_valid"]}
{"id": "C07", "title": "Partition offset detection picks the first valid offset", "statement": "Wrapping a device selects the first of the known partition offsets at which a volume is readable and valid, fails with InvalidVolume if there is none, and afterwards every read at x is a read of the underlying device at x plus that offset.", "quantifier": "all block devices and all read requests", "why_tests_cant": "depends on every device content at four far apart places", "anchors": ["xdvdfs-core/src/blockdev.rs: OffsetWrapper::new", "xdvdfs-core/src/blockdev.rs: OffsetWrapper::read"]}
{"id": "C08", "title": "Reading a hostile image never panics", "statement": "Listing a directory by tree walk, listing the whole image, looking up a path, opening a volume and reading whole file data never panic, whatever bytes the image contains and whichever reads fail.", "quantifier": "all images, all device failures, all table regions, all paths other than those made only of slashes", "why_tests_cant": "robustness must hold for every corrupt image", "anchors": ["xdvdfs-core/src/read.rs: walk_dirent_tree", "xdvdfs-core/src/read.rs: file_tree", "xdvdfs-core/src/read.rs: walk_path", "xdvdfs-core/src/layout.rs: read_data_all"]}
{"id": "C09", "title": "Path lookup never panics on any path string", "statement": "Looking up any path string in an image returns an entry or an error, never a panic.", "quantifier": "all path strings", "why_tests_cant": "the failing paths are a sparse family", "anchors": ["xdvdfs-core/src/read.rs: walk_path"]}
{"id": "C10", "title": "Directory listing and lookup terminate on every image", "statement": "Listing a directory by tree walk and looking up a name finish after finitely many reads on every image.", "quantifier": "all images", "why_tests_cant": "termination on all inputs cannot be tested", "anchors": ["xdvdfs-core/src/read.rs: walk_dirent_tree", "xdvdfs-core/src/read.rs: find_dirent"]}
{"id": "C11", "title": "Sequential scan terminates on every image", "statement": "Scanning a directory table sequentially finishes on every image, returning at most 128 entries per table sector.", "quantifier": "all images and all table regions", "why_tests_cant": "termination on all inputs cannot be tested", "anchors": ["xdvdfs-core/src/read.rs: DirentScanIter::next_entry", "xdvdfs-core/src/read.rs: scan_dirent_tree"]}
{"id": "C12", "title": "Sequential scan never panics on any image", "statement": "Scanning a directory table sequentially returns entries or an error, never a panic, on every image.", "quantifier": "all images", "why_tests_cant": "robustness must hold for every corrupt image", "anchors": ["xdvdfs-core/src/read.rs: DirentScanIter::next_entry"]}
{"id": "C13", "title": "Whole-file reads return exactly the file region", "statement": "Reading all data of an entry returns exactly size bytes, equal to the image bytes starting at its sector; a zero-size entry reads as empty without touching the device.", "quantifier": "all entries and all images", "why_tests_cant": "every size/sector combination", "anchors": ["xdvdfs-core/src/layout.rs: DirectoryEntryDiskData::read_data_all"]}
{"id": "C14", "title": "Partial reads never return bytes outside the file", "statement": "Reading size bytes of an entry at an offset returns only bytes belonging to the file: the file's bytes from the offset up to the requested size or end of file.", "quantifier": "all entries, offsets, sizes and images", "why_tests_cant": "boundary combinations of offset and size", "anchors": ["xdvdfs-core/src/layout.rs: DirectoryEntryDiskData::read_data_offset"]}
{"id": "C15", "title": "In-memory devices report out-of-range reads as errors", "statement": "Reading from an in-memory image fills the buffer or returns OutOfBounds; it never panics.", "quantifier": "all byte slices, offsets and buffer lengths", "why_tests_cant": "boundary combinations", "anchors": ["xdvdfs-core/src/blockdev.rs: BlockDeviceRead for [u8]"]}
{"id": "C16", "title": "The directory index is a set", "statement": "Inserting names one after the other keeps exactly one element per equivalence class: insert reports true exactly when no equal element was present, a rejected duplicate changes nothing, and the stored elements are exactly the accepted ones.", "quantifier": "all insertion sequences over any totally ordered type", "why_tests_cant": "unbounded histories", "anchors": ["xdvdfs-core/src/write/avl.rs: AvlTree::insert"]}
{"id": "C17", "title": "The directory index stays a balanced search tree", "statement": "After any sequence of insertions the tree is sorted in order, every node's subtrees differ in height by at most one, recorded heights are exact and every parent link is the inverse of a child link.", "quantifier": "all insertion sequences", "why_tests_cant": "rotations interact with every history; unit tests sample random ones", "anchors": ["xdvdfs-core/src/write/avl.rs: AvlTree::insert", "xdvdfs-core/src/write/avl.rs: AvlTree::rebalance", "xdvdfs-core/src/write/avl.rs: AvlTree::perform_rotation"]}
{"id": "C18", "title": "Lookup depth is logarithmic", "statement": "In a directory of n entries any lookup visits at most 2*log2(n+1) entries.", "quantifier": "all directories built by any insertion sequence", "why_tests_cant": "asymptotic bound over all sizes", "anchors": ["xdvdfs-core/src/write/avl.rs: AvlTree::insert", "xdvdfs-core/src/read.rs: find_dirent"]}
{"id": "C19", "title": "Reordering puts the index in pre-order without changing it", "statement": "Reordering the backing storage leaves the tree's shape and elements unchanged and makes the storage order the pre-order of the tree, so the root is stored first.", "quantifier": "all trees reachable by insertions", "why_tests_cant": "the swap procedure has order-dependent aliasing cases", "anchors": ["xdvdfs-core/src/write/avl.rs: AvlTree::reorder_backing_preorder", "xdvdfs-core/src/write/avl.rs: AvlTree::swap_backing_elements"]}
{"id": "C20", "title": "Index maintenance never panics or loops forever", "statement": "No assertion, unwrap, unreachable or index of the index code fails and every loop in it terminates, in any sequence of insertions followed by a reordering.", "quantifier": "all insertion sequences", "why_tests_cant": "absence of panics over all histories", "anchors": ["xdvdfs-core/src/write/avl.rs: AvlTree"]}
{"id": "C21", "title": "Table entries are aligned, never straddle sectors and use representable child offsets", "statement": "In a serialized directory table every entry starts at a multiple of four, lies entirely within one 2048-byte sector, entries do not overlap, and each child link is the child's offset divided by four, never the reserved values 0 or 0xffff.", "quantifier": "all sets of names", "why_tests_cant": "boundary positions depend on sums of all preceding name lengths", "anchors": ["xdvdfs-core/src/write/dirtab.rs: disk_repr", "xdvdfs-core/src/write/dirtab.rs: sector_align"]}
{"id": "C22", "title": "Announced table size equals serialized table size", "statement": "The size computed for a table before serialization equals the number of bytes serialized before padding; the serialized table is that size rounded up to whole sectors.", "quantifier": "all directory contents", "why_tests_cant": "two independent size computations must agree for every sequence of name lengths", "anchors": ["xdvdfs-core/src/write/dirtab.rs: compute_size", "xdvdfs-core/src/write/dirtab.rs: dirtab_size", "xdvdfs-core/src/write/dirtab.rs: disk_repr"]}
{"id": "C23", "title": "Every name in a table is found, and only those", "statement": "Looking up a name in a serialized table returns the entry whose name equals it ignoring ASCII case, with its size, attributes and data sector; looking up any other name returns DoesNotExist.", "quantifier": "all directory contents and all searched names", "why_tests_cant": "binary search correctness over all trees", "anchors": ["xdvdfs-core/src/write/dirtab.rs: disk_repr", "xdvdfs-core/src/read.rs: find_dirent"]}
{"id": "C24", "title": "Listing a table returns every entry exactly once", "statement": "Listing a serialized table by tree walk returns each entry exactly once, with its stored name, size, attributes and data sector.", "quantifier": "all directory contents", "why_tests_cant": "all tree shapes", "anchors": ["xdvdfs-core/src/write/dirtab.rs: disk_repr", "xdvdfs-core/src/read.rs: walk_dirent_tree"]}
{"id": "C25", "title": "Scan and walk agree", "statement": "On a serialized table, the sequential scan returns exactly the entries the tree walk returns.", "quantifier": "all directory contents", "why_tests_cant": "two traversal algorithms over all layouts, including sector-boundary gaps", "anchors": ["xdvdfs-core/src/read.rs: scan_dirent_tree", "xdvdfs-core/src/read.rs: walk_dirent_tree", "xdvdfs-core/src/write/dirtab.rs: disk_repr"]}
{"id": "C26", "title": "Sector allocations are disjoint", "statement": "Successive allocations are adjacent, start at sector 33, are large enough for the bytes requested, take at least one sector each and never overlap each other or the volume descriptor.", "quantifier": "all sequences of allocation requests", "why_tests_cant": "unbounded histories", "anchors": ["xdvdfs-core/src/write/sector.rs: SectorAllocator::allocate_contiguous", "xdvdfs-core/src/write/sector.rs: required_sectors"]}
{"id": "C27", "title": "Packing never overwrites its own output", "statement": "All writes made while packing (tables, file data, descriptor, padding) target pairwise disjoint byte ranges.", "quantifier": "all source trees", "why_tests_cant": "disjointness over all trees", "anchors": ["xdvdfs-core/src/write/img.rs: create_xdvdfs_image"]}
{"id": "C28", "title": "A packed image reads back exactly", "statement": "If packing reports success then, for every file of the source tree, looking its path up in the image in any letter case gives a file entry whose data equals the source content.", "quantifier": "all source trees and all paths in them", "why_tests_cant": "end-to-end correctness for all trees", "anchors": ["xdvdfs-core/src/write/img.rs: create_xdvdfs_image", "xdvdfs-core/src/read.rs: read_volume", "xdvdfs-core/src/read.rs: walk_path", "xdvdfs-core/src/layout.rs: read_data_all"]}
{"id": "C29", "title": "A packed image lists exactly the source tree", "statement": "If packing reports success then the recursive listing of the image contains every file and directory of the source tree exactly once, under its path, with its kind and size, and nothing else.", "quantifier": "all source trees", "why_tests_cant": "end-to-end correctness for all trees", "anchors": ["xdvdfs-core/src/write/img.rs: create_xdvdfs_image", "xdvdfs-core/src/read.rs: file_tree"]}
{"id": "C30", "title": "Absent paths are reported absent", "statement": "If packing reports success then looking up a path that is not in the source tree (ignoring ASCII case) returns DoesNotExist or IsNotDirectory, never an entry.", "quantifier": "all source trees and all paths not in them", "why_tests_cant": "quantifies over absent paths", "anchors": ["xdvdfs-core/src/write/img.rs: create_xdvdfs_image", "xdvdfs-core/src/read.rs: walk_path"]}
{"id": "C31", "title": "Case-insensitive duplicates are rejected", "statement": "Packing a tree in which a directory has two entries whose names agree ignoring ASCII case never reports success.", "quantifier": "all source trees with a collision", "why_tests_cant": "collisions can be anywhere in the tree and in any order", "anchors": ["xdvdfs-core/src/write/dirtab.rs: add_node", "xdvdfs-core/src/write/img.rs: create_dirent_tables"]}
{"id": "C32", "title": "Unrepresentable entries are rejected, not truncated", "statement": "Packing never reports success for a tree containing a file of 4 GiB or more, a name longer than 255 bytes, or a name with a character outside Windows-1252.", "quantifier": "all source trees", "why_tests_cant": "the offending entry can be anywhere", "anchors": ["xdvdfs-core/src/write/dirtab.rs: add_node", "xdvdfs-core/src/write/dirtab.rs: compute_size", "xdvdfs-core/src/write/img.rs: create_dirent_tables"]}
{"id": "C33", "title": "Every representable tree packs successfully", "statement": "Packing succeeds for every tree whose names are encodable, at most 255 bytes and distinct ignoring ASCII case, whose files are below 4 GiB, whose directory tables stay below 256 KiB and whose total size is below 2^32 sectors.", "quantifier": "all such source trees", "why_tests_cant": "liveness over all trees", "anchors": ["xdvdfs-core/src/write/img.rs: create_xdvdfs_image"]}
{"id": "C34", "title": "Packing never panics or hangs", "statement": "For every finite source tree, whatever names and sizes it contains, packing returns Ok or an error, unless the image would exceed 2^32 sectors or a single directory table 2^32 bytes.", "quantifier": "all source trees", "why_tests_cant": "absence of panics over all trees: unwraps on map lookups, assertions on sizes", "anchors": ["xdvdfs-core/src/write/img.rs: create_xdvdfs_image", "xdvdfs-core/src/write/img.rs: create_dirent_tables", "xdvdfs-core/src/write/dirtab.rs: disk_repr"]}
{"id": "C35", "title": "Image length is a multiple of 64 KiB", "statement": "After successful packing into a file the image length is a positive multiple of 65536.", "quantifier": "all source trees", "why_tests_cant": "all sizes", "anchors": ["xdvdfs-core/src/write/img.rs: create_xdvdfs_image"]}
{"id": "C36", "title": "An interrupted pack is never mistaken for a complete image", "statement": "If packing stops at any write (completely or partially performed), the output either does not open as a volume or already contains the complete readable tree.", "quantifier": "all source trees, all crash points, all partial last writes", "why_tests_cant": "all crash points", "anchors": ["xdvdfs-core/src/write/img.rs: create_xdvdfs_image", "xdvdfs-core/src/read.rs: read_volume"]}
{"id": "C37", "title": "Progress reports are complete and consistent", "statement": "A successful pack announces the number of directories and entries and then reports each directory exactly once and each entry exactly once, with the sector at which it is stored, and finally reports completion.", "quantifier": "all source trees", "why_tests_cant": "all trees", "anchors": ["xdvdfs-core/src/write/img.rs: create_xdvdfs_image", "xdvdfs-core/src/write/img.rs: dir_tree", "xdvdfs-core/src/write/img.rs: create_dirent_tables"]}
{"id": "C38", "title": "The source tree is scanned completely, parents first", "statement": "The packer lists every directory of the source exactly once and every directory after its parent.", "quantifier": "all source trees", "why_tests_cant": "all tree shapes", "anchors": ["xdvdfs-core/src/write/img.rs: dir_tree"]}
{"id": "C39", "title": "Compressing sees the same image as packing", "statement": "The sector-by-sector view used for compression equals, sector for sector, the image that packing the same tree into a file would produce.", "quantifier": "all source trees and all sectors", "why_tests_cant": "refinement between two device implementations", "anchors": ["xdvdfs-core/src/write/fs/sector_linear.rs: SectorLinearBlockDevice", "xdvdfs-core/src/write/fs/sector_linear.rs: CisoSectorInput::read_sector"]}
{"id": "C40", "title": "Compressing from an image never panics", "statement": "Every sector of an image repacked for compression can be read without panicking.", "quantifier": "all source images", "why_tests_cant": "fails for a class of file sizes", "anchors": ["xdvdfs-core/src/write/fs/sector_linear.rs: CisoSectorInput::read_sector", "xdvdfs-core/src/write/fs/xdvdfs.rs: copy_file_in"]}
{"id": "C41", "title": "The path index is a map", "statement": "Looking up a path in the path index returns the value of the first insertion of that name under that directory, and None if there was none; inserting one name never changes another.", "quantifier": "all insertion histories over names of characters below U+0100", "why_tests_cant": "unbounded histories", "anchors": ["xdvdfs-core/src/write/fs/mod.rs: PathPrefixTree::insert_tail", "xdvdfs-core/src/write/fs/mod.rs: PathPrefixTree::get"]}
{"id": "C42", "title": "Path index iteration is complete", "statement": "Iterating a directory of the path index yields each inserted name exactly once with its value.", "quantifier": "all insertion histories", "why_tests_cant": "all tries", "anchors": ["xdvdfs-core/src/write/fs/mod.rs: PPTIter::next"]}
{"id": "C43", "title": "The path index accepts every decodable name", "statement": "Inserting or looking up any file name that can occur in an image never panics.", "quantifier": "all names", "why_tests_cant": "fails for characters above U+00FF", "anchors": ["xdvdfs-core/src/write/fs/mod.rs: PathPrefixTree::insert_tail", "xdvdfs-core/src/write/fs/xdvdfs.rs: read_dir"]}
{"id": "C44", "title": "Repacking an image preserves its tree", "statement": "Repacking a packed image yields an image with the same files, directories and contents.", "quantifier": "all source trees", "why_tests_cant": "composition of reader and writer on all trees", "anchors": ["xdvdfs-core/src/write/fs/xdvdfs.rs: XDVDFSFilesystem::read_dir", "xdvdfs-core/src/write/fs/xdvdfs.rs: copy_file_in", "xdvdfs-core/src/write/img.rs: create_xdvdfs_image"]}
{"id": "C45", "title": "Unpacking a packed tree restores it", "statement": "Unpacking an image packed from a tree recreates every directory and file of that tree with the same content.", "quantifier": "all source trees", "why_tests_cant": "end-to-end over all trees", "anchors": ["xdvdfs-cli/src/cmd_unpack.rs: copyout_directory", "xdvdfs-core/src/write/img.rs: create_xdvdfs_image"]}
{"id": "C46", "title": "Unpacking stays inside the destination", "statement": "Unpacking an image only creates files and directories inside the destination directory.", "quantifier": "all images", "why_tests_cant": "hostile names", "anchors": ["xdvdfs-cli/src/cmd_unpack.rs: copyout_directory"]}
{"id": "C47", "title": "The checksum depends only on contents", "statement": "Two images that contain the same paths, kinds and file contents have the same checksum, whatever their physical layout. Where an image lists a path more than once, the last listed entry is the one that counts.", "quantifier": "all pairs of images with the same contents", "why_tests_cant": "all layouts", "anchors": ["xdvdfs-core/src/checksum.rs: checksum"]}
{"id": "C48", "title": "Different contents give different checksum inputs", "statement": "Two images with different paths or contents feed different byte strings to the hash.", "quantifier": "all pairs of images", "why_tests_cant": "collisions are specific pairs", "anchors": ["xdvdfs-core/src/checksum.rs: checksum"]}
{"id": "C49", "title": "Remap rules follow the documented precedence", "statement": "For a host path, the longest initial part that any rule matches is its match point. The path is mapped by the first positive rule that matches the match point after the last exclusion that matches it, and it is unmapped if there is none. The overlay reports only such mappings, gives every mapped entry a place, and never two.", "quantifier": "all rule lists, all glob semantics and all paths", "why_tests_cant": "all rule combinations", "anchors": ["xdvdfs-core/src/write/fs/remap.rs: RemapOverlayFilesystem::new"]}
{"id": "C50", "title": "Remapped listing and copying agree", "statement": "Every file the remap overlay lists is a file of the host that the rules map there, with the same length; copying it copies that host file, and the reported mapping names it. An image packed from the overlay holds the overlay's tree with those contents.", "quantifier": "all rule lists and host trees", "why_tests_cant": "all overlays", "anchors": ["xdvdfs-core/src/write/fs/remap.rs: read_dir", "xdvdfs-core/src/write/fs/remap.rs: copy_file_in", "xdvdfs-core/src/write/fs/remap.rs: dump"]}
{"id": "C51", "title": "Rewrite patterns are parsed exactly", "statement": "A rewrite pattern is rejected exactly when a brace is left open or contains a non-digit, and otherwise yields the decimal numbers in its braces in order.", "quantifier": "all pattern strings", "why_tests_cant": "all strings", "anchors": ["xdvdfs-core/src/write/fs/remap.rs: find_match_indices"]}
{"id": "C52", "title": "Mounted inode numbers are stable and unique", "statement": "In any history of lookups and listings, an entry keeps its inode number forever, different entries have different numbers, no entry gets 0 or 1, and every number given out resolves to its entry.", "quantifier": "all histories of inode assignments", "why_tests_cant": "unbounded histories", "anchors": ["xdvdfs-fsd/src/img_fs.rs: FuseFilesystemCache::get_or_assign_inode", "xdvdfs-fsd/src/img_fs.rs: lookup_dirent_by_inode"]}
{"id": "C53", "title": "Directory reading can resume anywhere", "statement": "However the kernel splits a directory listing over several readdir calls, resuming each at the last offset returned, every entry is delivered exactly once and in order.", "quantifier": "all directories and all splits", "why_tests_cant": "all buffer sizes and resumption points", "anchors": ["xdvdfs-fsd/src/img_fs.rs: FuseFilesystem::readdir"]}
{"id": "C54", "title": "A mounted file has one inode", "statement": "The inode number reported for a file when listing its directory equals the one reported when looking it up by name.", "quantifier": "all images and files", "why_tests_cant": "two code paths over all images", "anchors": ["xdvdfs-fsd/src/img_fs.rs: readdir", "xdvdfs-fsd/src/img_fs.rs: lookup", "xdvdfs-core/src/read.rs: DirentScanIter::next_entry", "xdvdfs-core/src/read.rs: read_dirent"]}
{"id": "C55", "title": "Reading a mounted file at or past its end returns no data", "statement": "A mounted read at an offset at or beyond the end of a file returns success with no data, and a read crossing the end returns only the remaining bytes.", "quantifier": "all files, offsets and sizes", "why_tests_cant": "boundary combinations", "anchors": ["xdvdfs-fsd/src/img_fs.rs: read", "xdvdfs-core/src/layout.rs: read_data_offset"]}
{"id": "C56", "title": "Chunked copying is exact", "statement": "Copying a range between devices with the default copier writes exactly the source bytes of the range at the destination range and nothing else, for any size.", "quantifier": "all sizes, offsets and devices", "why_tests_cant": "sizes around every multiple of the 1 MiB chunk", "anchors": ["xdvdfs-core/src/write/fs/xdvdfs.rs: RWCopier::copy"]}
{"id": "C57", "title": "extract-xiso create mode accepts every documented argument list", "statement": "Every argument list of the documented form -c DIR [FILE] [-c DIR [FILE]]... is parsed into exactly those (DIR, FILE) tasks.", "quantifier": "all argument lists of the documented form", "why_tests_cant": "unbounded argument lists", "anchors": ["xdvdfs-cli/src/exiso_compat.rs: exiso_create"]}
{"id": "C58", "title": "Rewriting an image never loses it", "statement": "In extract-xiso rewrite mode, at every crash point the original image bytes still exist under the original or the .old name, unless the new image was completely written.", "quantifier": "all crash points", "why_tests_cant": "all crash points", "anchors": ["xdvdfs-cli/src/exiso_compat.rs: exiso_repack"]}
{"id": "C59", "title": "Entry information prints true child offsets", "statement": "The child offsets printed by the info command equal four times the stored links.", "quantifier": "all entries", "why_tests_cant": "arithmetic overflow for large links only", "anchors": ["xdvdfs-cli/src/cmd_info.rs: print_dirent"]}
{"id": "C60", "title": "Path values behave like lists of components", "statement": "Appending a component then taking the base gives the original path; removing a prefix from a path that extends it gives the remainder; printing is a slash followed by the components joined by slashes.", "quantifier": "all paths", "why_tests_cant": "all paths", "anchors": ["xdvdfs-core/src/write/fs/mod.rs: PathVec"]}
{"id": "C61", "title": "Every valid image repacks", "statement": "Repacking succeeds for every image that opens and lists, whose directories have distinct names and whose files can be read, as long as the sizes are within the format's limits.", "quantifier": "all images, whatever tool wrote them", "why_tests_cant": "Images come from many tools and the name space is huge; only particular lengths and bytes of names trigger the rejection.", "anchors": ["xdvdfs-core/src/write/fs/xdvdfs.rs: read_dir, copy_file_in", "xdvdfs-core/src/write/dirtab.rs: add_node", "xdvdfs-core/src/write/fs/mod.rs: PathPrefixTree::insert_tail"]}
{"id": "C62", "title": "Compression tolerates short reads", "statement": "The sector view used for compression is the packed image however many bytes the operating system delivers per read of a source file, as long as it follows the Read contract.", "quantifier": "all source trees and all behaviours of read that deliver a non-empty prefix of the bytes asked for", "why_tests_cant": "Local disks deliver whole sectors in practice; short reads appear on network and FUSE file systems, at any read of any file.", "anchors": ["xdvdfs-core/src/write/fs/stdfs.rs: FilesystemCopier<[u8]> for StdFilesystem", "xdvdfs-core/src/write/fs/sector_linear.rs: CisoSectorInput::read_sector"]}
{"id": "C63", "title": "A reported success means the image is on disk", "statement": "When packing to a file with the command line tool reports success, the file on disk is complete: it holds the source tree and has its full, padded length. Without write errors, the tool's output buffer changes neither the result nor the file.", "quantifier": "all source trees, all ways the buffer is flushed, all write failures", "why_tests_cant": "all failure points of the writes and all flush schedules", "anchors": ["xdvdfs-cli/src/cmd_pack.rs: cmd_pack_path", "xdvdfs-core/src/blockdev.rs: BlockDeviceWrite", "xdvdfs-core/src/write/img.rs: create_xdvdfs_image"]}
{"id": "C64", "title": "A truncated source image is detected", "statement": "If repacking an image succeeds, every file of the source image could be read completely; a source image that ends before the data of one of its files makes the repack fail.", "quantifier": "all source images and all ways the data is transferred in pieces", "why_tests_cant": "The truncation can be anywhere and copying is split into chunks; tests use complete images.", "anchors": ["xdvdfs-core/src/write/fs/xdvdfs.rs: StdIOCopier::copy, RWCopier::copy, copy_file_in", "xdvdfs-core/src/write/img.rs: create_xdvdfs_image"]}
{"id": "C65", "title": "Copying out writes exactly the requested part", "statement": "Copying a file out of a packed image writes a file with exactly its content at the destination and changes nothing else; copying a directory out into a fresh place restores exactly the subtree below it.", "quantifier": "all source trees with host-compatible names, all files and directories in them, all host file systems without faults", "why_tests_cant": "Trees have unbounded depth and any directory can be the one copied; a wrong prefix or a missed entry shows only for particular shapes.", "anchors": ["xdvdfs-cli/src/cmd_unpack.rs: cmd_copyout", "xdvdfs-core/src/read.rs: walk_path, file_tree"]}
{"id": "C66", "title": "An unpack that succeeds wrote every file completely", "statement": "If unpacking an image reports success, every listed file exists on the host with the size and data the image gives for it; an image that ends before the data of a file makes the unpack fail.", "quantifier": "all images, whether or not the image handle can be duplicated", "why_tests_cant": "The truncation can be anywhere; tests unpack complete images.", "anchors": ["xdvdfs-cli/src/cmd_unpack.rs: copyout_directory, cmd_unpack"]}
{"id": "C67", "title": "The MD5 listing covers every file", "statement": "Listing the MD5 sums of a packed image succeeds and prints, for every file of the source, exactly one line with its path and the hash of its content, and no line for anything else than an entry of the source; asking for one file prints the hash of its content.", "quantifier": "all source trees, all hash functions", "why_tests_cant": "Trees have unbounded size; a missed entry or a wrong pairing shows only for particular shapes.", "anchors": ["xdvdfs-cli/src/cmd_md5.rs: md5_file_tree, md5_from_file_path, md5_from_root_tree", "xdvdfs-core/src/read.rs: file_tree"]}
{"id": "C68", "title": "Rewriting substitutes the captured text", "statement": "Rewriting a target pattern replaces each brace group by the text the glob captured under that number and leaves the rest as written; the target is the list of nonempty components of the result.", "quantifier": "all pattern strings and all captured texts", "why_tests_cant": "All patterns and captures: text captured for one group may itself look like a later group.", "anchors": ["xdvdfs-core/src/write/fs/remap.rs: RemapOverlayFilesystem::new, rewrite target substitution"]}
{"id": "C69", "title": "No mapped file is dropped", "statement": "Every host file to which a rule applies is listed by the overlay at the place where the rules map it.", "quantifier": "all rule lists and host trees", "why_tests_cant": "All combinations of rules and trees; conflicts arise between arbitrary pairs of files.", "anchors": ["xdvdfs-core/src/write/fs/remap.rs: RemapOverlayFilesystem::new, read_dir"]}
{"id": "C70", "title": "A mounted image shows the packed tree", "statement": "Mounting the image made by a successful pack succeeds. After any history of requests, looking up the path of a source entry component by component, in any letter case, finds it with its kind and size, reading within a file returns its content, reading a directory to the end delivers '.', '..' and exactly the entries of the source directory, and looking up any other path finds nothing.", "quantifier": "all source trees that pack, all histories of requests, all paths, all ways of splitting a listing", "why_tests_cant": "all trees, histories and read positions", "anchors": ["xdvdfs-fsd/src/img_fs.rs: FuseFilesystem::lookup", "xdvdfs-fsd/src/img_fs.rs: FuseFilesystem::read", "xdvdfs-fsd/src/img_fs.rs: FuseFilesystem::readdir", "xdvdfs-core/src/write/img.rs: create_xdvdfs_image"]}
{"id": "C71", "title": "A mounted image is read-only", "statement": "Opening a file or directory of a mounted image is refused exactly when the flags ask for writing, creating or truncating.", "quantifier": "all flag values", "why_tests_cant": "all 2^32 flag combinations", "anchors": ["xdvdfs-fsd/src/img_fs.rs: open", "xdvdfs-fsd/src/img_fs.rs: opendir"]}
{"id": "C72", "title": "Mount options mean what is written", "statement": "Documented mount options, spread over any number of -o arguments and separated by commas, are passed on in the order given; the last of fork and nofork decides; a file system name and subtype are added exactly when the user gives none; anything else is rejected.", "quantifier": "all lists of -o arguments", "why_tests_cant": "unbounded argument lists", "anchors": ["xdvdfs-fsd/src/main.rs: convert_fuse_mount_opts"]}
{"id": "C73", "title": "Rewriting with -d puts the new image in that directory", "statement": "After the extract-xiso compatible rewrite (-r) succeeds, the new image of every argument is in the directory given with -d under the argument's file name (or, without -d, in the place of the argument) and holds its complete tree.", "quantifier": "every host file system, list of images, -d directory, choice of -D, and write-failure pattern with a successful outcome", "why_tests_cant": "A test fixes a directory and a list of images; the claim is about every directory path and every combination of names.", "anchors": ["xdvdfs-cli/src/exiso_compat.rs: exiso_repack", "xdvdfs-cli/src/cmd_pack.rs: cmd_pack_path"]}
{"id": "C74", "title": "Packing never changes its source", "statement": "Whatever pack is given as source and output, and whatever fails, at every moment the source file or directory and everything below it is as it was, and at most one file of the host has changed, the output. When no output is given the tool chooses a path in the working directory that is not the source, and refuses it as part of the source only if the working directory is inside the source.", "quantifier": "every host file system, working directory, source and output path, write-failure pattern and moment of interruption", "why_tests_cant": "Aliasing between source and output depends on arbitrary path pairs and on when the run is interrupted.", "anchors": ["xdvdfs-cli/src/cmd_pack.rs: cmd_pack, cmd_pack_path, get_default_image_path", "xdvdfs-cli/src/img.rs: with_extension"]}
{"id": "C75", "title": "tree prints the whole source tree", "statement": "On an image packed from a source, the tree command prints exactly one line per entry of the source, with its path and, for files, its size, followed by the number of files and the sum of their sizes.", "quantifier": "all packed sources (total size below 2^64), plain or decompressed images, with or without overflow checks", "why_tests_cant": "ranges over all source trees; a test compares a few listings", "anchors": ["xdvdfs-cli/src/cmd_read.rs: cmd_tree", "xdvdfs-core/src/read.rs: file_tree"]}
{"id": "C76", "title": "ls prints the names of a directory", "statement": "On an image packed from a source, the ls command, with and without --scan, prints exactly the names in the directory named by its argument in any letter case; for a file it fails, and for a path not in the source it reports that the path does not exist or that a component is not a directory.", "quantifier": "all packed sources, all paths of non-empty components, both listing methods", "why_tests_cant": "ranges over all trees and paths, and compares two independent traversals", "anchors": ["xdvdfs-cli/src/cmd_read.rs: cmd_ls", "xdvdfs-core/src/read.rs: walk_path, walk_dirent_tree, scan_dirent_tree"]}
{"id": "C77", "title": "Packing a directory and unpacking the image restores the directory", "statement": "If `pack DIR OUT` reports success (and its output reached the disk when the file was closed), then `unpack OUT DEST` into a fresh place succeeds and creates there exactly what is in DIR: the same directories, the same files with the same bytes, and nothing else. Nothing else on the host changes.", "quantifier": "all host file trees, all orders in which the host lists directories, all ways in which copied data is cut, all output paths and fresh destinations", "why_tests_cant": "tests pack a handful of small trees; the claim is about every tree, listing order and destination", "anchors": ["xdvdfs-core/src/write/fs/stdfs.rs: StdFilesystem::read_dir, copy_file_in", "xdvdfs-cli/src/cmd_pack.rs: cmd_pack", "xdvdfs-cli/src/cmd_unpack.rs: cmd_unpack"]}
{"id": "C78", "title": "Nothing in a packed directory is silently left out", "statement": "If anywhere in the directory given to `pack` there is something that is neither a file nor a directory (such as a symbolic link), or whose name is not Unicode, then `pack` does not report success.", "quantifier": "all host file trees, all places in them at which such a thing may be, all orders of listing", "why_tests_cant": "tests cannot place such an entry at every depth and position of every tree", "anchors": ["xdvdfs-core/src/write/fs/stdfs.rs: StdFilesystem::read_dir", "xdvdfs-cli/src/cmd_pack.rs: cmd_pack"]}
{"id": "C79", "title": "Packing the same directory twice gives the same image", "statement": "Two successful packs of a directory with the same contents give images with the same bytes, whatever the order in which the host lists directories.", "quantifier": "all host file trees and all pairs of listing orders", "why_tests_cant": "the listing order of a host is fixed in a test run; other hosts list in other orders", "anchors": ["xdvdfs-core/src/write/fs/stdfs.rs: StdFilesystem::read_dir", "xdvdfs-core/src/write/img.rs: create_xdvdfs_image", "xdvdfs-core/src/write/dirtab.rs: DirectoryEntryTableWriter"]}
{"id": "C80", "title": "A stored image specification does what its options do", "statement": "If `image-spec from` turns some `-m` and `-O` options into a specification file, then `build-image` with this file does the same as `build-image` with the options: the same messages, the same states of the host, the same image. If `image-spec from` refuses the options, `build-image` refuses them too.", "quantifier": "all lists of rules and outputs, all host file systems, all glob engines, all fault histories, all faithful encodings of specifications", "why_tests_cant": "the rule lists, hosts and interruptions are unbounded, and the equality is between two whole runs", "anchors": ["xdvdfs-cli/src/cmd_build_image.rs: cmd_build_image, cmd_image_spec, ImageSpec"]}
{"id": "C81", "title": "build-image does not change its source", "statement": "At no moment during or after a run of `build-image` is any file of the source directory changed; nothing but the output is changed; a dry run changes nothing.", "quantifier": "all host file systems, arguments, rules, faults and moments of interruption", "why_tests_cant": "a test observes the end of some runs, not every moment of every run on every tree", "anchors": ["xdvdfs-cli/src/cmd_build_image.rs: cmd_build_image"]}
{"id": "C82", "title": "The dry run of build-image tells what it will do", "statement": "If the dry run and the real run succeed, the image holds a file with given bytes at a path exactly if the dry run printed a line from a host file with these bytes to this path, and a directory wherever it printed a line from a directory.", "quantifier": "all host trees, rules, glob engines, listing orders", "why_tests_cant": "the agreement is between two code paths, over all trees and rule lists", "anchors": ["xdvdfs-cli/src/cmd_build_image.rs: cmd_build_image", "xdvdfs-core/src/write/fs/remap.rs: RemapOverlayFilesystem::dump, read_dir, copy_file_in"]}
{"id": "C83", "title": "build-image refuses a source that does not exist", "statement": "If the source path does not exist, `build-image` fails and changes nothing.", "quantifier": "all host file systems and arguments", "why_tests_cant": "all paths and hosts", "anchors": ["xdvdfs-cli/src/cmd_build_image.rs: cmd_build_image"]}
{"id": "C84", "title": "-m rules are used as written", "statement": "A rule `HOST:IMAGE` given to `build-image` maps the files that match `HOST` to the path `IMAGE`, an exclusion `!HOST` may go without an image path, and any other rule without a colon is refused.", "quantifier": "all lists of rules, all host trees, all glob engines", "why_tests_cant": "rule lists are unbounded texts", "anchors": ["xdvdfs-cli/src/cmd_build_image.rs: cmd_build_image"]}
{"id": "C85", "title": "Create mode makes an image of each directory", "statement": "If extract-xiso create mode (`-c DIR [FILE]`, several times) succeeds, then for each directory there is an image of its contents at FILE, or beside the directory under its name with the extension `iso`, and no other file of the host has changed.", "quantifier": "all host file systems, working directories, lists of tasks, listing orders and write-failure patterns", "why_tests_cant": "task lists, path strings and trees are unbounded, and the tasks act on each other through the host", "anchors": ["xdvdfs-cli/src/exiso_compat.rs: exiso_create, exiso_create_single", "xdvdfs-cli/src/cmd_pack.rs: cmd_pack", "xdvdfs-cli/src/img.rs: absolute_path, with_extension"]}
{"id": "C86", "title": "Unpacking does not change the image", "statement": "Whatever an image contains, wherever it is unpacked to and whatever fails, the image file is afterwards what it was, and what is unpacked is what the image contained when the command was started.", "quantifier": "all host file systems, images, destinations and failures of the host", "why_tests_cant": "the image is read while files are written, and whether one of them is the image depends on its contents and on both paths", "anchors": ["xdvdfs-cli/src/cmd_unpack.rs: cmd_unpack, copyout_directory", "xdvdfs-cli/src/img.rs: open_image"]}
{"id": "C87", "title": "Extract mode restores each image", "statement": "If extract-xiso extract mode is given several packed images, then it succeeds and the tree of each of them is in the directory named like the image, and nothing else has changed.", "quantifier": "all host file systems, all lists of packed images and their paths", "why_tests_cant": "the images, paths and their number are unbounded, and later extractions act on what earlier ones wrote", "anchors": ["xdvdfs-cli/src/exiso_compat.rs: exiso_extract", "xdvdfs-cli/src/cmd_unpack.rs: cmd_unpack"]}
{"id": "C88", "title": "Unpacking without a destination uses the name of the image", "statement": "`unpack IMAGE` without a destination restores a packed image into a directory in the working directory that is named like the image without its extension, if nothing else has this name; if the image cannot be opened it fails with an error.", "quantifier": "all host file systems, working directories, path strings and packed images", "why_tests_cant": "path strings are unbounded texts, and the name is computed from them", "anchors": ["xdvdfs-cli/src/cmd_unpack.rs: cmd_unpack"]}
{"id": "C89", "title": "Packing into a memory buffer", "statement": "Packing into a memory buffer that is at least as large as the image succeeds whenever packing into a file does; the buffer then holds the same image (followed by zeros if it was zeroed) and the same progress is reported; packing into a smaller buffer fails.", "quantifier": "all source trees, buffer sizes and buffer contents", "why_tests_cant": "trees and buffers are unbounded, and whether every write is inside the buffer depends on the whole layout", "anchors": ["xdvdfs-core/src/blockdev.rs: BlockDeviceWrite for Box<[u8]>", "xdvdfs-core/src/write/img.rs: create_xdvdfs_image"]}
{"id": "C90", "title": "Packing a host directory into a memory buffer", "statement": "Packing a directory of the host into a memory buffer that is large enough succeeds, and the buffer holds the tree of the directory.", "quantifier": "all directories of the host, buffer sizes and buffer contents", "why_tests_cant": "directories are unbounded trees; the failure depends on where files are placed", "anchors": ["xdvdfs-core/src/write/fs/stdfs.rs: FilesystemCopier<Box<[u8]>> for StdFilesystem", "xdvdfs-core/src/write/img.rs: create_xdvdfs_image"]}
{"id": "C91", "title": "Compressing does not change its source", "statement": "Whatever the outcome, `compress` changes nothing at its source or below it.", "quantifier": "all host file systems, working directories, source and output path strings, outcomes", "why_tests_cant": "paths and file systems are unbounded; the check compares paths as they were typed", "anchors": ["xdvdfs-cli/src/cmd_compress.rs: cmd_compress"]}
{"id": "C92", "title": "Compressing a directory", "statement": "If compressing a directory succeeds, then packing it succeeds too, the numbered parts hold the image that packing would write, and nothing else on the host has changed; opening the first part afterwards gives that image, which holds exactly what was in the directory. It succeeds whenever packing does and nothing stands in the way of the parts.", "quantifier": "all directories of the host, output paths, encoders that split images in numbered parts", "why_tests_cant": "the image, the number of parts and the moments at which parts are created are unbounded; sources are read while parts are being written", "anchors": ["xdvdfs-cli/src/cmd_compress.rs: cmd_compress", "xdvdfs-cli/src/img.rs: open_image", "xdvdfs-core/src/write/fs/sector_linear.rs: SectorLinearImage"]}
{"id": "C93", "title": "Sources that cannot be compressed", "statement": "A directory that cannot be packed, or a file that is not an image, makes `compress` fail and leaves the host as it was.", "quantifier": "all host file systems, directories and files, with and without an output path", "why_tests_cant": "why a tree cannot be packed depends on the whole tree", "anchors": ["xdvdfs-cli/src/cmd_compress.rs: cmd_compress"]}
{"id": "C94", "title": "Default output of compress", "statement": "Without an output path, a directory `name` is compressed to `name.cso`, and an image to its stem with the extension `cso`, in the working directory.", "quantifier": "all source path strings", "why_tests_cant": "path strings are unbounded", "anchors": ["xdvdfs-cli/src/cmd_compress.rs: get_default_image_path, cmd_compress"]}
{"id": "C95", "title": "Opening a compressed image uses the parts of that image", "statement": "After `compress` has succeeded, opening the first part gives the image that was compressed.", "quantifier": "all host file systems before the run, directories, encoders", "why_tests_cant": "files from earlier runs can be anywhere, in any number", "anchors": ["xdvdfs-cli/src/img.rs: open_image", "xdvdfs-cli/src/cmd_compress.rs: cmd_compress"]}
{"id": "C96", "title": "Compressing an image", "statement": "Compressing an image succeeds, and the parts hold an image with the same tree and contents.", "quantifier": "all images, output paths, encoders", "why_tests_cant": "images are unbounded; whether a sector can be read depends on the file it belongs to", "anchors": ["xdvdfs-cli/src/cmd_compress.rs: cmd_compress", "xdvdfs-core/src/write/fs/xdvdfs.rs: XDVDFSFilesystem", "xdvdfs-core/src/write/fs/sector_linear.rs: SectorLinearImage"]}
{"id": "C97", "title": "The page Pack of the graphical front ends", "statement": "Whatever the user clicks and chooses and whatever the jobs report, the page Pack does not crash, runs at most one job, locks its buttons while it runs, and packs the input to the output that it shows as selected; it is usable whenever no job runs, and shows the error a job ended with.", "quantifier": "all sequences of clicks, choices, cancelled dialogs, progress reports and ends of jobs; all names of chosen files and folders", "why_tests_cant": "sequences of events are unbounded and the front end has no tests", "anchors": ["xdvdfs-web/src/packing.rs: ImageBuilderWorkflow", "xdvdfs-web/src/picker/mod.rs", "xdvdfs-web/src/picker/browser.rs, picker/tauri.rs"]}
{"id": "C98", "title": "The page Compress of the graphical front ends", "statement": "Whatever the user clicks and chooses, the page Compress does not crash, runs at most one job, and compresses the input to the output that it shows as selected.", "quantifier": "all sequences of clicks, choices, cancelled dialogs, progress reports and ends of jobs", "why_tests_cant": "sequences of events are unbounded and the front end has no tests", "anchors": ["xdvdfs-web/src/compress.rs: ImageBuilderWorkflow"]}
{"id": "C99", "title": "The page Unpack of the graphical front ends", "statement": "Whatever the user clicks and chooses, the page Unpack does not crash, runs at most one job, and unpacks the image that it shows as selected.", "quantifier": "all sequences of clicks, choices, cancelled dialogs, progress reports and ends of jobs", "why_tests_cant": "sequences of events are unbounded and the front end has no tests", "anchors": ["xdvdfs-web/src/unpacking.rs: ImageUnpackingWorkflow"]}
{"id": "C100", "title": "The desktop application shows failures", "statement": "If a job of the desktop application does not succeed, the page shows an error when the job has ended.", "quantifier": "all histories of the pages, all hosts, sources, outputs and failing writes", "why_tests_cant": "the failures of hosts and sources cannot be enumerated", "anchors": ["xdvdfs-desktop/src/pack.rs: pack_image", "xdvdfs-desktop/src/unpack.rs: unpack_image", "xdvdfs-desktop/src/compress.rs: compress_image", "xdvdfs-web/src/ops/tauri.rs"]}
{"id": "C101", "title": "Packing in the desktop application", "statement": "The command that packs changes nothing but the output; if the source can be packed the output holds the whole source; under failing writes the output is complete or cannot be opened; the source is kept.", "quantifier": "all hosts, sources and outputs, all failing writes", "why_tests_cant": "all host states, trees and write failures", "anchors": ["xdvdfs-desktop/src/pack.rs: pack_image"]}
{"id": "C102", "title": "Unpacking in the desktop application", "statement": "The command that unpacks restores the tree of the image below the chosen folder, changes nothing else and keeps the image.", "quantifier": "all hosts, images and folders", "why_tests_cant": "all trees, host states and paths", "anchors": ["xdvdfs-desktop/src/unpack.rs: unpack_image"]}
{"id": "C103", "title": "Compressing in the desktop application", "statement": "The command that compresses puts the parts into the folder the user chose; the parts hold the image of the source.", "quantifier": "all hosts, sources and folders", "why_tests_cant": "all host states, trees and names of folders", "anchors": ["xdvdfs-desktop/src/compress.rs: compress_image"]}
{"id": "C104", "title": "The progress bar of the desktop application", "statement": "From the start of a job to its end the page never shows more things done than there are nor more than 100 percent, and after success it shows that all entries of the source are done.", "quantifier": "all sources, hosts and moments of a job", "why_tests_cant": "the number of reports is unbounded", "anchors": ["xdvdfs-desktop/src/pack.rs: pack_image", "xdvdfs-desktop/src/unpack.rs: unpack_image", "xdvdfs-web/src/packing.rs: update, view", "xdvdfs-web/src/unpacking.rs: update, view"]}
{"id": "C105", "title": "Packing in the browser", "statement": "When the browser version packs a folder or an image and reports success, the output file is an image with exactly the files and directories of the source as it was, also when the output is one of the files of the source or the image itself. A folder that the command line tool packs is packed in the browser to the same image, but for zeros at the end, and a valid image is packed, provided the browser refuses nothing and no write fails.", "quantifier": "all hosts, folders, images and output files, all orders in which the browser lists folders", "why_tests_cant": "all trees, host states and orders of listing", "anchors": ["xdvdfs-web/src/ops/browser.rs: pack_image, pack_image_impl", "xdvdfs-web/src/fs/mod.rs: WebFileSystem, FSWriteWrapper, populate, read_dir, copy_file_in", "xdvdfs-web/src/fs/util.rs: entry_list, to_file"]}
{"id": "C106", "title": "Packing in the browser is all or nothing", "statement": "If packing in the browser does not succeed, whatever was refused and whichever write failed, no file is changed; and packing never changes any file but the output.", "quantifier": "all hosts, sources and outputs, everything the browser may refuse, all failing writes", "why_tests_cant": "the failures cannot be enumerated", "anchors": ["xdvdfs-web/src/ops/browser.rs: pack_image, pack_image_impl", "xdvdfs-web/src/fs/mod.rs: FSWriteWrapper"]}
{"id": "C107", "title": "Packing a folder in the browser is reproducible", "statement": "Packing the same folder in two browsers that list it in different orders gives the same image, byte for byte, and the same reports of progress.", "quantifier": "all folders, all orders of listing, all pairs of outputs", "why_tests_cant": "all orders of listing", "anchors": ["xdvdfs-web/src/fs/mod.rs: populate, read_dir", "xdvdfs-web/src/ops/browser.rs: pack_image"]}
{"id": "C108", "title": "Unpacking in the browser", "statement": "When the browser version unpacks an image into a folder and reports success, the folder holds every directory and file of the image with its contents, and nothing else has changed; an image that was packed is unpacked into every folder with room for it unless something is refused or a write fails; and whatever the image holds and whatever fails, nothing outside the chosen folder changes, nothing is removed, and directories stay directories and files stay files.", "quantifier": "all hosts, images, folders, everything the browser may refuse and all failing writes", "why_tests_cant": "all images, trees and host states; failures cannot be enumerated", "anchors": ["xdvdfs-web/src/ops/browser.rs: unpack_image", "xdvdfs-web/src/fs/util.rs: create_file, create_directory, to_file", "xdvdfs-core/src/read.rs: walk_dirent_tree"]}
{"id": "C109", "title": "Progress of unpacking in the browser", "statement": "While the browser version unpacks, its page shows at every moment not more entries done than there are and not more than 100 percent; when it has finished, it shows that all entries of the image are done.", "quantifier": "all images, hosts, failures and moments", "why_tests_cant": "all images and all moments of the run", "anchors": ["xdvdfs-web/src/ops/browser.rs: unpack_image", "xdvdfs-web/src/unpacking.rs: UnpackWorkflow, update"]}
{"id": "C110", "title": "Compressing in the browser", "statement": "When the browser version compresses a folder or an image into a chosen folder and reports success, the parts in the chosen folder, numbered from 1 and named after the source, are those of an image of the folder as it was, or of an image with the tree of the source image, and nothing else has changed; a folder that the command line tool packs is compressed to the parts of the same image unless something is refused or a write fails; however compressing ends, nothing has changed but parts in the chosen folder; and if it ends with an error, nothing has changed.", "quantifier": "all hosts, folders, images, encoders and decoders that belong together, everything the browser may refuse and all failing writes", "why_tests_cant": "all trees and host states; failures cannot be enumerated", "anchors": ["xdvdfs-web/src/ops/browser.rs: compress_image, compress_image_impl", "xdvdfs-web/src/fs/ciso.rs: CisoOutputDirectory", "xdvdfs-core/src/write/fs/sector_linear.rs"]}
{"id": "C111", "title": "Success and errors are shown in the browser", "statement": "In the browser version, after packing, unpacking or compressing, the page shows that it has finished exactly if the operation succeeded, and it shows an error exactly if the operation failed.", "quantifier": "all histories of the page, sources, outputs, hosts, refusals and failing writes", "why_tests_cant": "all histories and failures", "anchors": ["xdvdfs-web/src/packing.rs: create_image", "xdvdfs-web/src/unpacking.rs", "xdvdfs-web/src/compress.rs", "xdvdfs-web/src/ops/browser.rs", "xdvdfs-web/src/fs/mod.rs: WebFileSystem::new"]}
{"id": "C112", "title": "The mount command tells what happened", "statement": "The mount command rejects wrong arguments with a status other than 0. Otherwise it returns, whatever the schedule of its two processes; its status is 0 exactly if the image could be opened and mounted; and when it returns with status 0 the image is mounted. What is mounted is the image that was named, as it was when it was opened. Without forking, its status is 0 exactly if the image was mounted and later unmounted.", "quantifier": "all image files, arguments, schedules of the two processes, requests, and moments at which either process is killed", "why_tests_cant": "all interleavings of the two processes and all kill points", "anchors": ["xdvdfs-fsd/src/main.rs: main, run_mount_program, mount_image_file", "xdvdfs-fsd/src/daemonize.rs: Daemonize, DaemonizeHandle"]}
{"id": "C113", "title": "A mounted image keeps answering", "statement": "After an image has been mounted, every request of the kernel is answered, however many were made before: the program neither dies nor stops responding, the numbers it gives to entries do not run out, and it ends only when the image is unmounted.", "quantifier": "all packed trees and all images, all histories of requests of any length, schedules of the two processes", "why_tests_cant": "all histories of requests, of unbounded length", "anchors": ["xdvdfs-fsd/src/img_fs.rs: FuseFilesystemCache::get_or_assign_inode, FuseFilesystem", "xdvdfs-fsd/src/main.rs: mount_image_file", "xdvdfs-core/src/read.rs: DirentScanIter, find_dirent"]}
{"id": "C114", "title": "Where pack writes when no output is given", "statement": "Without an output path, packing a directory writes the image under the directory's name with `.iso` added, into the working directory; packing an image replaces the image's extension by `.iso`; if that would be the image itself, it is `.xiso.iso` instead. The input is therefore never the default output. A root directory has no name, and packing it without an output path fails.", "quantifier": "all hosts, working directories, source paths and names", "why_tests_cant": "all names, with any dots in them, and all positions of the source relative to the working directory", "anchors": ["xdvdfs-cli/src/cmd_pack.rs: cmd_pack, get_default_image_path", "xdvdfs-cli/src/img.rs: with_extension, absolute_path"]}
{"id": "C115", "title": "Extract mode stops at the first failure", "statement": "When several images are extracted, they are extracted in order; if one fails, the command reports that failure, the images after it are not touched, and what was extracted before stays. It succeeds exactly if every image is extracted.", "quantifier": "all lists of images, destinations, hosts and failures", "why_tests_cant": "all numbers of images and all positions of a failing one", "anchors": ["xdvdfs-cli/src/exiso_compat.rs: exiso_extract", "xdvdfs-cli/src/cmd_unpack.rs: cmd_unpack"]}
{"id": "C116", "title": "The compress page shows the progress of compression", "statement": "While an image is compressed, the page shows how many sectors are done, out of how many, and the percentage; at the end the bar is full.", "quantifier": "all sizes of images, all sequences of reports from the encoder, all earlier events on the page", "why_tests_cant": "all report sequences and all sizes", "anchors": ["xdvdfs-web/src/compress.rs: ImageCompressorWorkflow::update, view"]}
{"id": "C117", "title": "How an image is stored makes no difference to the reading commands", "statement": "`ls`, `tree`, `info`, `md5` and `checksum` show the same, or fail the same way, for a game partition stored as a file, for a whole disc that has it at one of the known offsets, and for its compressed form written by `compress`.", "quantifier": "all images, damaged ones included, all commands and arguments, all three ways of storing, all hosts", "why_tests_cant": "all images and all commands", "anchors": ["xdvdfs-cli/src/cmd_read.rs: cmd_ls, cmd_tree, cmd_checksum", "xdvdfs-cli/src/cmd_info.rs: cmd_info", "xdvdfs-cli/src/cmd_md5.rs: cmd_md5", "xdvdfs-cli/src/img.rs: open_image", "xdvdfs-core/src/blockdev.rs: OffsetWrapper"]}
{"id": "C118", "title": "What the checksum command prints", "statement": "The command has exit status 0 exactly if every image has a checksum; it prints each image's checksum and path, in order, up to the first image that has none. Images with the same files and directories have the same checksum, however they are laid out.", "quantifier": "all lists of images, all hosts, all hash functions", "why_tests_cant": "all lists of images and all layouts of the same contents", "anchors": ["xdvdfs-cli/src/cmd_read.rs: cmd_checksum, checksum_single", "xdvdfs-cli/src/main.rs: run_xdvdfs_program", "xdvdfs-core/src/checksum.rs: checksum"]}
{"id": "C119", "title": "What list mode prints", "statement": "The list mode of extract-xiso has exit status 0 exactly if every image can be listed; it prints the listing of each image, in order, as the tree command does, up to the first image that cannot be listed.", "quantifier": "all lists of images, all hosts", "why_tests_cant": "all lists of images", "anchors": ["xdvdfs-cli/src/exiso_compat.rs: exiso_list, run_exiso_program", "xdvdfs-cli/src/cmd_read.rs: cmd_tree"]}
{"id": "C120", "title": "Copying part of a file copies exactly that part", "statement": "A source filesystem (directory of the host, folder in the browser, overlay, image) can copy any part of a file: asked for `size` bytes from an offset, to an offset of an output file or buffer, it writes exactly those bytes there, reports their number, and leaves the rest of the destination alone. Bytes that are not in the file are never copied, even if the part asked for ends beyond the end of the file.", "quantifier": "all files and contents, all offsets and sizes, all destinations", "why_tests_cant": "all offsets, sizes and contents, for every kind of source", "anchors": ["xdvdfs-core/src/write/fs/stdfs.rs: FilesystemCopier for StdFilesystem", "xdvdfs-core/src/write/fs/xdvdfs.rs: FilesystemCopier for XDVDFSFilesystem, RWCopier", "xdvdfs-core/src/write/fs/remap.rs: FilesystemCopier for RemapOverlayFilesystem", "xdvdfs-web/src/fs/mod.rs: FilesystemCopier"]}
{"id": "C121", "title": "Read errors never lead to wrong results", "statement": "When some reads of an image fail (a bad sector, a file that ends too early, a lost connection), every operation that reads the image gives exactly what it gives when those reads succeed, or it reports an error: no listing with entries missing, no wrong contents, no wrong checksum. The commands print the same, or they report an error after a part of it.", "quantifier": "all images, all sets of reads that fail, all operations and reading commands, all places where an image file can end", "why_tests_cant": "the reads that fail can be any, at any point of any operation", "anchors": ["xdvdfs-core/src/read.rs", "xdvdfs-core/src/blockdev.rs: OffsetWrapper::new, BlockDeviceRead", "xdvdfs-core/src/checksum.rs", "xdvdfs-cli/src/cmd_read.rs", "xdvdfs-cli/src/cmd_md5.rs", "xdvdfs-cli/src/cmd_info.rs", "xdvdfs-cli/src/cmd_unpack.rs"]}
{"id": "C122", "title": "Errors of the source never lead to a wrong image", "statement": "When the source of a pack, a repack or a compression reports errors that it would not report otherwise, the operation writes exactly what it writes without the errors, or it reports an error; it never reports success for an image with entries or data missing.", "quantifier": "all sources, all sets of listings, copies and reads that fail, all faults of the output", "why_tests_cant": "the errors can be any, at any point of the operation", "anchors": ["xdvdfs-core/src/write/img.rs: create_xdvdfs_image", "xdvdfs-core/src/write/fs/xdvdfs.rs", "xdvdfs-core/src/write/fs/sector_linear.rs", "xdvdfs-cli/src/cmd_compress.rs"]}
{"id": "C123", "title": "The reading commands print what is in the image", "statement": "On an image packed from a tree, stored as a file of its own or inside a whole disc, the commands print what is in the tree and succeed: `ls` the names in a directory, with or without `--scan`; `tree` a line for every entry and the totals; `md5` the hash of every file or of the file asked for; `info` the volume, or the entries. For a path that is not in the tree, and `ls` for a file, they print nothing and fail.", "quantifier": "all trees, all images and discs, all directories, files and paths in any letter case, all hash functions", "why_tests_cant": "trees and directories have unbounded size, and the commands go through opening, searching and listing", "anchors": ["xdvdfs-cli/src/cmd_read.rs: cmd_ls, cmd_tree", "xdvdfs-cli/src/cmd_md5.rs: cmd_md5", "xdvdfs-cli/src/cmd_info.rs: cmd_info", "xdvdfs-cli/src/img.rs: open_image"]}
{"id": "C124", "title": "`md5` of a directory", "statement": "Asking `md5` for a directory, `/` included, prints for every file at and below it one line with the hash of its content and its path, and succeeds.", "quantifier": "all trees, all directories in any letter case, all hash functions", "why_tests_cant": "trees have unbounded size and depth; what is printed depends on the depth", "anchors": ["xdvdfs-cli/src/cmd_md5.rs: md5_from_file_path, md5_file_tree", "xdvdfs-core/src/read.rs: file_tree, walk_path"]}
{"id": "C125", "title": "A packed image is compact", "statement": "An image packed into an empty file consists of the volume descriptor and of one place for the root directory and for each entry of the tree. The places follow one another from sector 33 without a gap, and the file is no longer than it must be to hold them in whole units of 64 KiB.", "quantifier": "all trees, all contents, all images packed from them", "why_tests_cant": "trees have unbounded size and every allocation depends on all earlier ones", "anchors": ["xdvdfs-core/src/write/img.rs: create_xdvdfs_image", "xdvdfs-core/src/write/sector.rs: SectorAllocator", "xdvdfs-core/src/write/dirtab.rs: DirectoryEntryTableWriter"]}
{"id": "C126", "title": "A packed image contains nothing but the tree", "statement": "In an image packed into an empty file every byte that is neither in the volume descriptor nor in the place of a directory or file is zero. What is in the place of a file is its content. In the table of a directory every byte outside the header and name of an entry listed there is 0xff.", "quantifier": "all trees, all contents, all bytes of all images packed from them", "why_tests_cant": "the claim is about every byte of an image of unbounded size", "anchors": ["xdvdfs-core/src/write/img.rs: create_xdvdfs_image", "xdvdfs-core/src/write/dirtab.rs: disk_repr"]}
{"id": "C127", "title": "Packing into a partition of a disc", "statement": "Packing into a device that is a partition of a disc (an offset wrapper) ends as packing into a file of its own ends and reports the same. It leaves what is in front of the partition as it was, and puts into the partition what the file would contain, whatever write fails. After success the tree can be read from the partition.", "quantifier": "all trees, all discs and partitions, all earlier contents, all points at which a write fails", "why_tests_cant": "trees, discs and failure points are unbounded", "anchors": ["xdvdfs-core/src/blockdev.rs: OffsetWrapper (BlockDeviceWrite)", "xdvdfs-core/src/write/img.rs: create_xdvdfs_image"]}
{"id": "C128", "title": "Seeking in a partition", "statement": "Seeking in an offset wrapper moves, returns and refuses as seeking in a file that contains only the partition.", "quantifier": "all offsets, lengths, positions and seeks, from the start, the end and the current position", "why_tests_cant": "positions and distances range over all integers", "anchors": ["xdvdfs-core/src/blockdev.rs: OffsetWrapper (Seek)"]}
{"id": "C129", "title": "A failing unpack leaves only parts of the tree", "statement": "Whatever the host refuses and wherever a write stops, unpacking a packed image creates nothing but missing directories of the tree and of the way to the destination, and files of the tree holding a part of their content from its beginning. Nothing is removed and nothing else is changed. If it reports success, every entry of the tree is there with its whole content.", "quantifier": "all trees, all images packed from them, all hosts, faults, destinations and earlier contents of the host", "why_tests_cant": "the host can fail at any of an unbounded number of operations, in any state", "anchors": ["xdvdfs-cli/src/cmd_unpack.rs: copyout_directory, cmd_unpack"]}
{"id": "C130", "title": "Unpacking into a place that is not empty", "statement": "Unpacking a packed image into an existing directory replaces the files of the tree, keeps all other files and succeeds, also where the tree has been unpacked before.", "quantifier": "all trees, all images packed from them, all destinations and earlier contents of the host", "why_tests_cant": "trees and contents of the host are unbounded", "anchors": ["xdvdfs-cli/src/cmd_unpack.rs: copyout_directory, cmd_unpack"]}
{"id": "C131", "title": "Attributes and time stamp", "statement": "A packed image has the time stamp 0, and every entry has the attribute byte 0x10 if it is a directory and 0x20 if it is a file. Repacking an image keeps the time stamp of the volume and the attributes of its entries.", "quantifier": "all trees and images packed from them, all paths; all images that repack, all their entries", "why_tests_cant": "trees, paths and images are unbounded", "anchors": ["xdvdfs-core/src/write/dirtab.rs: DirectoryEntryTableWriter::add_dir, add_file", "xdvdfs-core/src/write/img.rs: create_xdvdfs_image", "xdvdfs-core/src/layout.rs: VolumeDescriptor::new", "xdvdfs-core/src/write/fs/xdvdfs.rs: read_dir"]}
{"id": "C132", "title": "The way paths are written does not matter for build-image", "statement": "What `build-image` does depends on the places its arguments name, not on how they are written: relative or absolute, through `.` and `..`, with slashes at the end, from any working directory.", "quantifier": "all file trees, working directories, arguments and ways of writing them, all specifications, rules and faults", "why_tests_cant": "path strings, trees and working directories are unbounded", "anchors": ["xdvdfs-cli/src/cmd_build_image.rs: cmd_build_image", "xdvdfs-cli/src/img.rs: with_extension"]}
{"id": "C133", "title": "Iterating over a directory", "statement": "A loop over the iterator of a directory delivers the entries of the directory, each once and in order, and then ends for good; if a read fails, the loop does not end as if the directory were complete.", "quantifier": "all devices, tables and schedules of failing reads", "why_tests_cant": "the tables, and the reads that fail, are unbounded", "anchors": ["xdvdfs-core/src/read.rs: DirentScanIter::next_entry, Iterator for DirentScanIter"]}
{"id": "C134", "title": "What determines an image", "statement": "Two packed images whose directories list the same names in the same order and whose files have the same contents are the same byte for byte, wherever they come from; in particular repacking an image changes nothing.", "quantifier": "all source trees, contents, listing orders, ways in which the contents are delivered, and fault schedules that do not make the commands fail", "why_tests_cant": "trees and contents are unbounded, and the layout depends on all of them", "anchors": ["xdvdfs-core/src/write/img.rs: create_xdvdfs_image", "xdvdfs-core/src/write/dirtab.rs: DirectoryEntryTableWriter", "xdvdfs-core/src/write/avl.rs: AvlTree::insert, reorder_backing_preorder"]}
{"id": "C135", "title": "Lookup and listing agree on images of other tools", "statement": "On any image, whatever tool made it, an entry that is found has the name that was looked for, ignoring ASCII case, and is in the listing of the directory; if the links of the directories form search trees, of whatever shape, every entry that is listed is found by its name or path, and every other name or path is reported as missing.", "quantifier": "all devices and images, directory tables, names and paths; any shape of the search trees", "why_tests_cant": "images come from unknown tools; the shapes and contents of their tables are unbounded", "anchors": ["xdvdfs-core/src/read.rs: find_dirent, walk_path, walk_dirent_tree, file_tree"]}
{"id": "C136", "title": "The way a path is written does not matter for lookups", "statement": "On any image, looking up a path gives the same result, found or not, for any letter case of its ASCII letters, with any number of slashes in front of it, and with or without a slash at its end.", "quantifier": "all devices and images, directory tables and path strings", "why_tests_cant": "paths and images are unbounded", "anchors": ["xdvdfs-core/src/read.rs: walk_path, find_dirent", "xdvdfs-core/src/util.rs: cmp_ignore_case_utf8"]}
{"id": "C137", "title": "Repacking keeps everything that is listed", "statement": "If an image, whatever tool made it, can be listed and its files can be read, then after a successful repack the new image lists exactly the same paths, with the same kinds, sizes and contents.", "quantifier": "all images and copiers; directory tables of any shape; write faults that do not prevent success", "why_tests_cant": "images come from unknown tools; listing follows the links between entries while repacking reads the tables from the first byte to the last, and both must give the same entries in every table", "anchors": ["xdvdfs-core/src/read.rs: walk_dirent_tree, file_tree, scan_dirent_tree, DirentScanIter::next", "xdvdfs-core/src/write/fs/xdvdfs.rs: XDVDFSFilesystem::read_dir, copy_file_in", "xdvdfs-core/src/write/img.rs: create_xdvdfs_image"]}
{"id": "C138", "title": "Packed and repacked images are well-formed", "statement": "The image that a successful pack or repack leaves is well-formed, so that other readers of the format can use it too: the volume descriptor is there, the whole tree can be listed, every directory table is inside the image and is a search tree by name in which missing children are marked with 0, its entries are aligned, do not cross sector borders and do not overlap, the stored entries are exactly those that the links lead to, and all file data is inside the image.", "quantifier": "all sources, source images, previous contents of the output and write faults that do not prevent success", "why_tests_cant": "source trees and images are unbounded", "anchors": ["xdvdfs-core/src/write/img.rs: create_xdvdfs_image", "xdvdfs-core/src/write/dirtab.rs: DirectoryEntryTableWriter::disk_repr", "xdvdfs-core/src/write/avl.rs"]}
{"id": "C139", "title": "Changing a file changes its own bytes in the image only", "statement": "When files of a source change without changing their sizes, the new image has the same length and layout as the old one, and a byte of it differs only if it is a byte of a file and differs in that file. So replacing the bytes of one file in an image, at the place where looking the file up finds it, gives exactly the image that packing the changed source gives.", "quantifier": "all sources, all contents of the same sizes, all write faults that do not prevent success", "why_tests_cant": "sources, contents and the bytes of images are unbounded", "anchors": ["xdvdfs-core/src/write/img.rs: create_xdvdfs_image", "xdvdfs-core/src/write/sector.rs: SectorAllocator", "xdvdfs-core/src/write/dirtab.rs: DirectoryEntryTableWriter::disk_repr"]}
{"id": "C140", "title": "Bytes that belong to nothing do not matter", "statement": "Bytes of an image that are neither in the volume descriptor nor in the table of a directory nor in a file (the first 64 KiB, the rest of the last sector of a file, data after the tree, leftovers of what was in the output file before) have no influence: the image still holds exactly the packed tree, with everything at the same place, and repacking it gives the same image byte for byte.", "quantifier": "all sources, all previous contents of the output, all values of the bytes outside of the tree, all data appended, all ways of copying", "why_tests_cant": "sources, images and the bytes outside of the tree are unbounded", "anchors": ["xdvdfs-core/src/read.rs: read_volume, DirectoryEntryTable", "xdvdfs-core/src/write/img.rs: create_xdvdfs_image", "xdvdfs-core/src/write/fs/xdvdfs.rs: XDVDFSFilesystem"]}
{"id": "C141", "title": "Files that change while they are packed", "statement": "A source may deliver less for a file than the length it listed, for example because another program shortened the file, or replaced it, while the image was being made. If packing succeeds nevertheless, the image opens, every listed directory and file is found, with the listed length, and nothing else is found. A file reads back as the delivered bytes followed by zeros up to the listed length, or with an error if the image ends before it; it never reads back as bytes of another file or of a table, and files that were delivered in full read back exactly. A file that grew is cut to the listed length.", "quantifier": "all sources, all deliveries up to the listed lengths, all histories of a host directory during packing, all write faults that do not prevent success", "why_tests_cant": "sources, lengths and the changes other programs make are unbounded", "anchors": ["xdvdfs-core/src/write/img.rs: create_xdvdfs_image", "xdvdfs-core/src/write/fs/stdfs.rs: StdFilesystem::copy_file_in"]}
{"id": "C142", "title": "Different trees give different images", "statement": "If two packs give the same image, byte for byte, then the two sources have the same tree: the same directories, the same names, files of the same lengths with the same bytes. Conversely the same listings and contents give the same image. For directories of hosts: if the output files of two successful packs are the same, the two directories hold the same.", "quantifier": "all pairs of sources, all pairs of hosts, all write faults that do not prevent success, all previous contents of the outputs", "why_tests_cant": "pairs of trees are unbounded", "anchors": ["xdvdfs-core/src/write/img.rs: create_xdvdfs_image", "xdvdfs-cli/src/cmd_pack.rs: cmd_pack"]}
{"id": "C143", "title": "Packing a copy of a directory", "statement": "A directory and a copy of it, on the same host or on another, in whatever order their hosts list the files, pack into images with the same checksum. If both hosts list the files in the same order, the two images are the same, byte for byte. In particular, packing a directory, unpacking the image and packing the result gives an image with the checksum of the first, and the same image if the files are listed in the same order.", "quantifier": "all pairs of hosts and directories with the same tree, all orders of listing, all write faults that do not prevent success, all hash functions", "why_tests_cant": "trees, hosts and orders of listing are unbounded", "anchors": ["xdvdfs-cli/src/cmd_pack.rs: cmd_pack", "xdvdfs-cli/src/cmd_unpack.rs: cmd_unpack", "xdvdfs-core/src/checksum.rs: checksum", "xdvdfs-core/src/write/img.rs: create_xdvdfs_image"]}
{"id": "C144", "title": "Which sources can be packed", "statement": "A source whose directories can all be listed and whose files can all be copied, that is small enough for an image and has no very large directory, packs if and only if all names are at most 255 bytes long, in characters of Windows-1252, and different from their siblings ignoring ASCII case, and all files are below 4 GiB. A directory whose entries take more than 262408 bytes never packs.", "quantifier": "all sources, all trees, all working outputs, all states of the output", "why_tests_cant": "sources, names and directory sizes are unbounded", "anchors": ["xdvdfs-core/src/write/img.rs: create_xdvdfs_image", "xdvdfs-core/src/write/dirtab.rs: DirectoryEntryTableWriter"]}
{"id": "C145", "title": "What the error of a failing pack tells", "statement": "If packing fails with an error, the error tells something that is the case: a directory of the source could not be listed and gave this error, a name is longer than 255 bytes, a name cannot be encoded in Windows-1252, two names in a directory are the same ignoring ASCII case, a file has 4 GiB or more, a directory has very many names, or an operation of the output or of copying a file gave this error. A source that cannot be listed or stored is refused before anything is written to the output; if only one kind of defect is in the source, that one is told. On the command line, an error of pack other than one of input and output is explained by what is below the packed directory, or the output is inside it.", "quantifier": "all sources, all outputs with arbitrary behaviour, all hosts, all write faults", "why_tests_cant": "sources, sequences of device errors and hosts are unbounded", "anchors": ["xdvdfs-core/src/write/img.rs: create_xdvdfs_image, FilesystemHierarchy", "xdvdfs-core/src/write/dirtab.rs: DirectoryEntryTableWriter", "xdvdfs-cli/src/cmd_pack.rs: cmd_pack"]}
{"id": "C146", "title": "What no command was told to write stays, and an image restores its directory afterwards", "statement": "After any sequence of pack, unpack, copy-out, build-image, image-spec and compress commands, of the create and rewrite modes of the extract-xiso interface and of other programs, in any working directories, each of which may succeed, fail or be killed, and where unpack and copy-out are used on images that have no name with a slash in it, every file and directory of the host that none of them was told to write is what it was. So a directory that was packed successfully can be restored: whatever happens to the host afterwards, as long as nobody writes the image, unpacking it into a fresh place gives exactly what was in the directory when it was packed.", "quantifier": "all hosts, all histories of commands and of other programs, all outcomes and faults of the commands, all directories", "why_tests_cant": "histories, hosts and the points at which commands fail or are killed are unbounded", "anchors": ["xdvdfs-cli/src/cmd_pack.rs: cmd_pack", "xdvdfs-cli/src/cmd_unpack.rs: cmd_unpack", "xdvdfs-cli/src/cmd_unpack.rs: cmd_copyout", "xdvdfs-cli/src/cmd_build_image.rs: cmd_build_image", "xdvdfs-cli/src/cmd_compress.rs: cmd_compress", "xdvdfs-cli/src/cmd_build_image.rs: cmd_image_spec", "xdvdfs-cli/src/exiso_compat.rs: exiso_create, exiso_repack"]}
{"id": "C147", "title": "Reading a file into a buffer", "statement": "Reading the data of an entry into a buffer puts the beginning of the file there, as much as fits, and leaves the rest of the buffer as it was.", "quantifier": "all images and devices, all entries, all buffers", "why_tests_cant": "images and lengths of files and buffers are unbounded", "anchors": ["xdvdfs-core/src/layout.rs: DirectoryEntryDiskData::read_data"]}
{"id": "C148", "title": "Jobs of different tabs do not disturb each other's pages", "statement": "The pages Pack, Unpack and Compress are used at the same time, in tabs. Whatever the user and the jobs do, what is shown on a page is what its own user actions and its own job have led to; a page crashes, and offers buttons, as it would alone. Whatever the jobs do, at most one dialog is open in the application, and only on the page that is shown; and what the user or a job could do on a page alone can be done in the application, too.", "quantifier": "both versions of the application, all histories of what the user does on all tabs and of what all jobs report, in every interleaving", "why_tests_cant": "interleavings of user actions and of the reports of concurrent jobs are unbounded", "anchors": ["xdvdfs-web/src/main.rs: XisoToolTab", "xdvdfs-web/src/ops/tauri.js: pack_image, unpack_image, compress_image", "xdvdfs-web/src/ops/tauri.rs: XDVDFSOperations", "xdvdfs-desktop/src/pack.rs: pack_image"]}
{"id": "C149", "title": "A specification written by image-spec builds the same image", "statement": "`image-spec from` changes nothing but the file it is told to write, not even this one if the options are refused. `build-image` with that file, run later and in any directory, does exactly what it does with the `-m` options, with the `-O` path, seen from the mapped directory, as the image path if no other is given; of rules with the same pattern the position of the first and the image path of the last count.", "quantifier": "all lists of rules as documented, all outputs, hosts, working directories, glob engines, faults, and all faithful text formats", "why_tests_cant": "rule lists, hosts and faults are unbounded, and the equality is between two whole runs", "anchors": ["xdvdfs-cli/src/cmd_build_image.rs: cmd_image_spec, cmd_build_image"]}
{"id": "C150", "title": "What ls, tree and info print tells images apart", "statement": "If `ls`, `tree` or `info` prints the same text for two images, it found the same in them: `ls` the same names, `tree` the same directories and files with the same sizes, `info` the same volume or the same entries with the same offsets, links, locations, sizes and attributes. In particular, images of two sources for which `tree` prints the same text were packed from the same directories and files with the same sizes.", "quantifier": "all pairs of images, readable or not as packed ones, all paths, options and names", "why_tests_cant": "pairs of images and names are unbounded; a clash of two texts needs the right pair", "anchors": ["xdvdfs-cli/src/cmd_info.rs: cmd_info, print_dirent, print_subdir, print_volume", "xdvdfs-cli/src/cmd_read.rs: cmd_ls, cmd_tree", "xdvdfs-core/src/layout.rs: Display for DirentAttributes"]}
{"id": "C151", "title": "How long an image becomes", "statement": "The length of an image packed into a new file is determined by the names and contents in the source tree, not by the order in which directories are listed: it is at least what the tables and contents need in whole sectors after sector 32, at most one more sector for every empty file and the gaps in tables of more than one sector, both rounded up to units of 64 KiB.", "quantifier": "all source trees that can be packed, all orders of listing", "why_tests_cant": "the number of directories and files and the lengths of names and contents are unbounded; the gaps depend on all names of a directory", "anchors": ["xdvdfs-core/src/write/sector.rs: SectorAllocator", "xdvdfs-core/src/write/dirtab.rs: DirectoryEntryTableWriter::compute_size, dirtab_size", "xdvdfs-core/src/write/img.rs: create_xdvdfs_image"]}
