/-
Dump files of the database (Db/dbdump.c, Db/crc1.h): wg_dump, wg_check_dump, wg_import_dump.

A memory segment and a file are lists of bytes.  A gint has 8 bytes and a gint32 has 4, lowest byte first.
-/
namespace Gkc.Dump

abbrev Byte := BitVec 8
abbrev Image := List Byte

/-! ### Bytes -/

/-- `k` bytes from position `o` as a number -/
def rd (m : Image) (o : Nat) : Nat → Nat
  | 0 => 0
  | k + 1 => (m.getD o 0).toNat + 256 * rd m (o + 1) k

/-- the number `v` put into `k` bytes from position `o` -/
def wr (m : Image) (o : Nat) : Nat → Nat → Image
  | 0, _ => m
  | k + 1, v => wr (m.set o (BitVec.ofNat 8 v)) (o + 1) k (v / 256)

/-- the gint with these 64 bits -/
def gint (v : Nat) : Int := if v < 2 ^ 63 then v else (v : Int) - 2 ^ 64

/-! ### The checksum -/

/-- crc_table, Db/crc1.h:28-81 -/
def crcTab : List Nat :=
  [0x00000000, 0x77073096, 0xee0e612c, 0x990951ba, 0x076dc419, 0x706af48f, 0xe963a535, 0x9e6495a3,
   0x0edb8832, 0x79dcb8a4, 0xe0d5e91e, 0x97d2d988, 0x09b64c2b, 0x7eb17cbd, 0xe7b82d07, 0x90bf1d91,
   0x1db71064, 0x6ab020f2, 0xf3b97148, 0x84be41de, 0x1adad47d, 0x6ddde4eb, 0xf4d4b551, 0x83d385c7,
   0x136c9856, 0x646ba8c0, 0xfd62f97a, 0x8a65c9ec, 0x14015c4f, 0x63066cd9, 0xfa0f3d63, 0x8d080df5,
   0x3b6e20c8, 0x4c69105e, 0xd56041e4, 0xa2677172, 0x3c03e4d1, 0x4b04d447, 0xd20d85fd, 0xa50ab56b,
   0x35b5a8fa, 0x42b2986c, 0xdbbbc9d6, 0xacbcf940, 0x32d86ce3, 0x45df5c75, 0xdcd60dcf, 0xabd13d59,
   0x26d930ac, 0x51de003a, 0xc8d75180, 0xbfd06116, 0x21b4f4b5, 0x56b3c423, 0xcfba9599, 0xb8bda50f,
   0x2802b89e, 0x5f058808, 0xc60cd9b2, 0xb10be924, 0x2f6f7c87, 0x58684c11, 0xc1611dab, 0xb6662d3d,
   0x76dc4190, 0x01db7106, 0x98d220bc, 0xefd5102a, 0x71b18589, 0x06b6b51f, 0x9fbfe4a5, 0xe8b8d433,
   0x7807c9a2, 0x0f00f934, 0x9609a88e, 0xe10e9818, 0x7f6a0dbb, 0x086d3d2d, 0x91646c97, 0xe6635c01,
   0x6b6b51f4, 0x1c6c6162, 0x856530d8, 0xf262004e, 0x6c0695ed, 0x1b01a57b, 0x8208f4c1, 0xf50fc457,
   0x65b0d9c6, 0x12b7e950, 0x8bbeb8ea, 0xfcb9887c, 0x62dd1ddf, 0x15da2d49, 0x8cd37cf3, 0xfbd44c65,
   0x4db26158, 0x3ab551ce, 0xa3bc0074, 0xd4bb30e2, 0x4adfa541, 0x3dd895d7, 0xa4d1c46d, 0xd3d6f4fb,
   0x4369e96a, 0x346ed9fc, 0xad678846, 0xda60b8d0, 0x44042d73, 0x33031de5, 0xaa0a4c5f, 0xdd0d7cc9,
   0x5005713c, 0x270241aa, 0xbe0b1010, 0xc90c2086, 0x5768b525, 0x206f85b3, 0xb966d409, 0xce61e49f,
   0x5edef90e, 0x29d9c998, 0xb0d09822, 0xc7d7a8b4, 0x59b33d17, 0x2eb40d81, 0xb7bd5c3b, 0xc0ba6cad,
   0xedb88320, 0x9abfb3b6, 0x03b6e20c, 0x74b1d29a, 0xead54739, 0x9dd277af, 0x04db2615, 0x73dc1683,
   0xe3630b12, 0x94643b84, 0x0d6d6a3e, 0x7a6a5aa8, 0xe40ecf0b, 0x9309ff9d, 0x0a00ae27, 0x7d079eb1,
   0xf00f9344, 0x8708a3d2, 0x1e01f268, 0x6906c2fe, 0xf762575d, 0x806567cb, 0x196c3671, 0x6e6b06e7,
   0xfed41b76, 0x89d32be0, 0x10da7a5a, 0x67dd4acc, 0xf9b9df6f, 0x8ebeeff9, 0x17b7be43, 0x60b08ed5,
   0xd6d6a3e8, 0xa1d1937e, 0x38d8c2c4, 0x4fdff252, 0xd1bb67f1, 0xa6bc5767, 0x3fb506dd, 0x48b2364b,
   0xd80d2bda, 0xaf0a1b4c, 0x36034af6, 0x41047a60, 0xdf60efc3, 0xa867df55, 0x316e8eef, 0x4669be79,
   0xcb61b38c, 0xbc66831a, 0x256fd2a0, 0x5268e236, 0xcc0c7795, 0xbb0b4703, 0x220216b9, 0x5505262f,
   0xc5ba3bbe, 0xb2bd0b28, 0x2bb45a92, 0x5cb36a04, 0xc2d7ffa7, 0xb5d0cf31, 0x2cd99e8b, 0x5bdeae1d,
   0x9b64c2b0, 0xec63f226, 0x756aa39c, 0x026d930a, 0x9c0906a9, 0xeb0e363f, 0x72076785, 0x05005713,
   0x95bf4a82, 0xe2b87a14, 0x7bb12bae, 0x0cb61b38, 0x92d28e9b, 0xe5d5be0d, 0x7cdcefb7, 0x0bdbdf21,
   0x86d3d2d4, 0xf1d4e242, 0x68ddb3f8, 0x1fda836e, 0x81be16cd, 0xf6b9265b, 0x6fb077e1, 0x18b74777,
   0x88085ae6, 0xff0f6a70, 0x66063bca, 0x11010b5c, 0x8f659eff, 0xf862ae69, 0x616bffd3, 0x166ccf45,
   0xa00ae278, 0xd70dd2ee, 0x4e048354, 0x3903b3c2, 0xa7672661, 0xd06016f7, 0x4969474d, 0x3e6e77db,
   0xaed16a4a, 0xd9d65adc, 0x40df0b66, 0x37d83bf0, 0xa9bcae53, 0xdebb9ec5, 0x47b2cf7f, 0x30b5ffe9,
   0xbdbdf21c, 0xcabac28a, 0x53b39330, 0x24b4a3a6, 0xbad03605, 0xcdd70693, 0x54de5729, 0x23d967bf,
   0xb3667a2e, 0xc4614ab8, 0x5d681b02, 0x2a6f2b94, 0xb40bbe37, 0xc30c8ea1, 0x5a05df1b, 0x2d02ef8d]

/-- an entry of the table -/
def table (i : BitVec 8) : BitVec 32 := BitVec.ofNat 32 (crcTab.getD i.toNat 0)

/-- The body of the loop in update_crc32, Db/crc1.h:87-88.  `crc` is a gint32, so `crc >> 8` keeps the sign. -/
def crcStep (crc : BitVec 32) (b : Byte) : BitVec 32 := table (b ^^^ crc.setWidth 8) ^^^ crc.sshiftRight 8

/-- update_crc32, Db/crc1.h:83-91 -/
def updateCrc (buf : Image) (crc : BitVec 32) : BitVec 32 := buf.foldl crcStep (crc ^^^ 0xffffffff#32) ^^^ 0xffffffff#32

/-! ### The header -/

/-- What depends on the build: MEMSEGMENT_VERSION and MEMSEGMENT_FEATURES (Db/dballoc.h:154, Db/dbfeatures.h:82), the position of the
field `locks` in the header, and the size of the header (Db/dballoc.h:471-549).  The field `extdbs` comes right after `locks`. -/
structure Build where
  version : Nat
  features : Nat
  locks : Nat
  hdr : Nat

/-- the fields mark, version, features, checksum, size, free: Db/dballoc.h:476-482 -/
def mark (m : Image) : Nat := rd m 0 4
def version (m : Image) : Nat := rd m 4 4
def features (m : Image) : Nat := rd m 8 4
def checksum (m : Image) : Nat := rd m 12 4
def size (m : Image) : Int := gint (rd m 16 8)
def free (m : Image) : Int := gint (rd m 24 8)

/-- tail, queue_lock, storage, max_nodes, freelist: Db/dballoc.h:344-348; extdbs.count: Db/dballoc.h:430 -/
def tail (B : Build) (m : Image) : Nat := rd m B.locks 8
def queueLock (B : Build) (m : Image) : Nat := rd m (B.locks + 8) 8
def storage (B : Build) (m : Image) : Nat := rd m (B.locks + 16) 8
def maxNodes (B : Build) (m : Image) : Nat := rd m (B.locks + 24) 8
def freelist (B : Build) (m : Image) : Nat := rd m (B.locks + 32) 8
def extCount (B : Build) (m : Image) : Nat := rd m (B.locks + 40) 8

/-- wg_check_header_compat, Db/dbmem.c:537-564; the mark is MEMSEGMENT_MAGIC_MARK.  The two answers for a wrong mark are one here. -/
def compat (B : Build) (m : Image) : Int :=
  if mark m ≠ 1232319011 then -1
  else if version m ≠ B.version then -3
  else if features m ≠ B.features then -4
  else 0

/-! ### Writing -/

/-- wg_dump_internal, Db/dbdump.c:85-181, without USE_DBLOG: the value returned and the file afterwards.  Other processes may change
the segment meanwhile: it is `m0` when `free` is read (line 88), `m1` when the checksum is computed (line 137) and `m2` when it is
written (line 140).  `locked` says whether the lock was given.  Writing to the file does not fail, and db_rulock always succeeds.
The file is opened with "wb" before the lock is asked for. -/
def dump (m0 : Image) (locked : Bool) (m1 m2 : Image) : Int × Image :=
  if !locked then (-1, [])
  else
    let n := (free m0).toNat
    let crc := updateCrc (m1.take n) 0
    (0, wr (m2.take n) 12 4 crc.toNat)

/-! ### Checking -/

/-- the loop of wg_check_dump, Db/dbdump.c:246-249, with `buf` read already -/
def checkLoop (buf rest : Image) (filesize : Nat) (crc : BitVec 32) : Nat × BitVec 32 :=
  let filesize := filesize + buf.length
  let crc := updateCrc buf crc
  if rest.take 8192 = [] then (filesize, crc)
  else checkLoop (rest.take 8192) (rest.drop 8192) filesize crc
termination_by rest.length
decreasing_by
  rename_i h
  cases rest with
  | nil => simp at h
  | cons a l => simp only [List.length_drop, List.length_cons]; omega

/-- wg_check_dump, Db/dbdump.c:202-267, for a file that can be opened: the value returned, minsize and maxsize -/
def check (B : Build) (f : Image) : Int × Int × Int :=
  if f.length < 8192 then (-1, 0, 0)
  else
    let buf := f.take 8192
    if compat B buf ≠ 0 then (-2, 0, 0)
    else
      let minsize := free buf
      let r := checkLoop (wr buf 12 4 0) (f.drop 8192) 0 0
      if (r.1 : Int) ≠ minsize then (-3, minsize, size buf)
      else if r.2 ≠ BitVec.ofNat 32 (checksum buf) then (-3, minsize, size buf)
      else (0, minsize, size buf)

/-! ### Reading -/

/-- the cells of the loop in wg_init_locks, Db/dblock.c:1260-1264: `k` cells from `i` on, each pointing to the next -/
def linkCells (m : Image) (i : Nat) : Nat → Image
  | 0 => m
  | k + 1 => linkCells (wr m i 8 (i + 128)) (i + 128) k

/-- wg_init_locks, Db/dblock.c:1242-1278; SYN_VAR_PADDING is 128.  There is at least one cell. -/
def initLocks (B : Build) (m : Image) : Image :=
  let st := storage B m
  let k := maxNodes B m
  let m := linkCells m st k
  let m := wr m (st + 128 * (k - 1)) 8 0
  let m := wr m (B.locks + 32) 8 (storage B m)
  let m := wr m B.locks 8 0
  wr m (queueLock B m) 8 0

/-- wg_import_dump, Db/dbdump.c:278-357, for a file that can be opened: the value returned and the segment afterwards -/
def importDump (B : Build) (m f : Image) : Int × Image :=
  if f.length < B.hdr then (-1, m)
  else if extCount B f ≠ 0 then (-1, m)
  else
    let n := free f
    if size m < n then (-1, m)
    else if n ≤ 0 then (-1, m)
    else if (f.length : Int) < n then (-2, f ++ m.drop f.length)
    else
      let newsize := rd m 16 8
      let m := f.take n.toNat ++ m.drop n.toNat
      let m := wr m 16 8 newsize
      let m := wr m 12 4 0
      (0, initLocks B m)

end Gkc.Dump
