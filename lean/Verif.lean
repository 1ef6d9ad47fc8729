import Verif.Model.Base
import Verif.Model.Params
import Verif.Model.KeccakP
import Verif.Model.Hash
import Verif.Model.LowMC
import Verif.Model.Zkb
import Verif.Model.Tree
import Verif.Model.Picnic3
import Verif.Model.Api
import Verif.Model.Alias
import Verif.Model.Align
import Verif.Model.Bits32
import Verif.Model.Cycle
import Verif.Model.Endian
import Verif.Model.Heap
import Verif.Model.Ints
import Verif.Model.Kats
import Verif.Model.KeccakStatic
import Verif.Model.Leak
import Verif.Model.LeakApi
import Verif.Model.LeakHash
import Verif.Model.LeakKeccakP
import Verif.Model.LeakLowMC
import Verif.Model.LeakPicnic3
import Verif.Model.LeakTree
import Verif.Model.LeakVerify
import Verif.Model.LeakZkb
import Verif.Model.LowMCTables
import Verif.Model.LowMCTables128
import Verif.Model.LowMCTables192p
import Verif.Model.LowMCTables256
import Verif.Model.Overlap
import Verif.Model.Picnic3Rep
import Verif.Model.Print
import Verif.Model.RandomOther
import Verif.Model.Residue
import Verif.Model.Sha3
import Verif.Model.Tests
import Verif.Model.Vectors
import Verif.Spec.Alias
import Verif.Spec.Api
import Verif.Spec.Binding
import Verif.Spec.CInt
import Verif.Spec.Challenge
import Verif.Spec.Cross
import Verif.Spec.CrossSet
import Verif.Spec.Distribution
import Verif.Spec.Domains
import Verif.Spec.Forger
import Verif.Spec.Grain
import Verif.Spec.Kats
import Verif.Spec.Keccak
import Verif.Spec.Layout
import Verif.Spec.LowMC
import Verif.Spec.Memory
import Verif.Spec.Overlap
import Verif.Spec.Picnic1
import Verif.Spec.Picnic3
import Verif.Spec.Picnic3Sec
import Verif.Spec.Recover
import Verif.Spec.Rom
import Verif.Spec.RomAdapt
import Verif.Spec.RomForge
import Verif.Spec.RomForge3
import Verif.Spec.RomOneWay
import Verif.Spec.RomStrong
import Verif.Spec.Sha3
import Verif.Spec.Shake
import Verif.Spec.Sizes
import Verif.Spec.Soundness
import Verif.Spec.Sponge
import Verif.Spec.Standard
import Verif.Spec.Tree
import Verif.Spec.Work
import Verif.Spec.Zkb
import Verif.Proofs.AdaptBound
import Verif.Proofs.AdaptCourse
import Verif.Proofs.AdaptForge
import Verif.Proofs.AdaptGame
import Verif.Proofs.AdaptHit
import Verif.Proofs.AdaptMain
import Verif.Proofs.AdaptPatch
import Verif.Proofs.AdaptStep
import Verif.Proofs.Alias
import Verif.Proofs.Base
import Verif.Proofs.Binding1
import Verif.Proofs.Binding3
import Verif.Proofs.Bits
import Verif.Proofs.Bits32
import Verif.Proofs.CInt
import Verif.Proofs.Conf1
import Verif.Proofs.Conf1Dig
import Verif.Proofs.Conf3
import Verif.Proofs.Conf3Sig
import Verif.Proofs.Conf3Tree
import Verif.Proofs.Conf3Ver
import Verif.Proofs.Cross
import Verif.Proofs.CrossSet
import Verif.Proofs.Distribution
import Verif.Proofs.Distribution2
import Verif.Proofs.Domains
import Verif.Proofs.Extract3
import Verif.Proofs.Extract3Api
import Verif.Proofs.Fips
import Verif.Proofs.ForgeBase
import Verif.Proofs.ForgeChain
import Verif.Proofs.ForgeCore
import Verif.Proofs.ForgeLib
import Verif.Proofs.ForgeLucky
import Verif.Proofs.ForgeMany
import Verif.Proofs.ForgePoints
import Verif.Proofs.ForgeProc
import Verif.Proofs.ForgeSim
import Verif.Proofs.ForgeSimChain
import Verif.Proofs.ForgeSound
import Verif.Proofs.ForgeVerify
import Verif.Proofs.Forger
import Verif.Proofs.Grain
import Verif.Proofs.GrainCerts
import Verif.Proofs.GrainCerts128
import Verif.Proofs.GrainCerts192p
import Verif.Proofs.GrainCerts256
import Verif.Proofs.GrainCheck
import Verif.Proofs.GrainChunk
import Verif.Proofs.GrainChunks
import Verif.Proofs.GrainRun
import Verif.Proofs.H3
import Verif.Proofs.Hash
import Verif.Proofs.Heap
import Verif.Proofs.Heap2
import Verif.Proofs.Heap3
import Verif.Proofs.Heap4
import Verif.Proofs.Heap5
import Verif.Proofs.Heap6
import Verif.Proofs.HeapSize
import Verif.Proofs.Kats
import Verif.Proofs.KatsSign
import Verif.Proofs.Keccak
import Verif.Proofs.KeccakStatic
import Verif.Proofs.Keys
import Verif.Proofs.LeakAttr
import Verif.Proofs.LeakErase
import Verif.Proofs.LeakPub
import Verif.Proofs.LeakQuiet
import Verif.Proofs.LeakRel
import Verif.Proofs.LeakRel1
import Verif.Proofs.LeakRel2
import Verif.Proofs.LeakRel3
import Verif.Proofs.LeakRel4
import Verif.Proofs.LeakRel5
import Verif.Proofs.LeakSim
import Verif.Proofs.LeakTop
import Verif.Proofs.LeakVerifyErase
import Verif.Proofs.LowMC
import Verif.Proofs.LowMCTables
import Verif.Proofs.LowMCTablesAll
import Verif.Proofs.Merkle
import Verif.Proofs.Merkle2
import Verif.Proofs.Merkle3
import Verif.Proofs.Merkle4
import Verif.Proofs.OneWay
import Verif.Proofs.Order
import Verif.Proofs.Overlap
import Verif.Proofs.OverlapKeys
import Verif.Proofs.P3Api
import Verif.Proofs.P3Aux
import Verif.Proofs.P3Aux2
import Verif.Proofs.P3Challenge
import Verif.Proofs.P3Complete
import Verif.Proofs.P3Congr
import Verif.Proofs.P3Correct
import Verif.Proofs.P3Hash
import Verif.Proofs.P3Online
import Verif.Proofs.P3Online2
import Verif.Proofs.P3Priv
import Verif.Proofs.P3Priv2
import Verif.Proofs.P3Priv3
import Verif.Proofs.P3Ser
import Verif.Proofs.P3Sign
import Verif.Proofs.P3Tree
import Verif.Proofs.P3Verify
import Verif.Proofs.P3Word
import Verif.Proofs.Params
import Verif.Proofs.Recover
import Verif.Proofs.Rom3Cand
import Verif.Proofs.Rom3Chain
import Verif.Proofs.Rom3Congr
import Verif.Proofs.Rom3Core
import Verif.Proofs.Rom3Lib
import Verif.Proofs.Rom3Main
import Verif.Proofs.Rom3Same
import Verif.Proofs.Rom3Trans
import Verif.Proofs.RomAdv
import Verif.Proofs.RomBad
import Verif.Proofs.RomClash
import Verif.Proofs.RomConv
import Verif.Proofs.RomHit
import Verif.Proofs.RomLib
import Verif.Proofs.RomMain
import Verif.Proofs.RomMany
import Verif.Proofs.RomProb
import Verif.Proofs.RomSigner
import Verif.Proofs.RomSim
import Verif.Proofs.RomSwap
import Verif.Proofs.RomViews
import Verif.Proofs.SameInst
import Verif.Proofs.SeedTree
import Verif.Proofs.SeedTree2
import Verif.Proofs.Sha3
import Verif.Proofs.Sha3Hash
import Verif.Proofs.Sha3Perm
import Verif.Proofs.Sizes
import Verif.Proofs.SizesEnc
import Verif.Proofs.SizesMax
import Verif.Proofs.SizesNum
import Verif.Proofs.SizesWide
import Verif.Proofs.Soundness
import Verif.Proofs.SoundnessEx
import Verif.Proofs.StrongBound
import Verif.Proofs.StrongTwin
import Verif.Proofs.Termination
import Verif.Proofs.Tests
import Verif.Proofs.Tree
import Verif.Proofs.TreeSpec
import Verif.Proofs.Uniform
import Verif.Proofs.Words
import Verif.Proofs.Work
import Verif.Proofs.WorkHash
import Verif.Proofs.WorkPicnic3
import Verif.Proofs.WorkSign
import Verif.Proofs.WorkTree
import Verif.Proofs.WorkZkb
import Verif.Proofs.ZkbApi
import Verif.Proofs.ZkbMpc
import Verif.Proofs.ZkbOob
import Verif.Proofs.ZkbOob2
import Verif.Proofs.ZkbPriv
import Verif.Proofs.ZkbRound
import Verif.Proofs.ZkbSer
import Verif.Proofs.ZkbSign
import Verif.Proofs.ZkbSpec
import Verif.Proofs.ZkbVerify
import Verif.Props.Alias
import Verif.Props.Align
import Verif.Props.AsSpecified
import Verif.Props.Binding
import Verif.Props.Bits32
import Verif.Props.Conform1
import Verif.Props.Conform3
import Verif.Props.Cross
import Verif.Props.CrossSet
import Verif.Props.Cycle
import Verif.Props.Damaged
import Verif.Props.Distribution
import Verif.Props.Domains
import Verif.Props.Endian
import Verif.Props.Example
import Verif.Props.Extract3
import Verif.Props.Forger
import Verif.Props.Grain
import Verif.Props.Hash
import Verif.Props.Heap
import Verif.Props.HeapSize
import Verif.Props.Ints
import Verif.Props.Kats
import Verif.Props.KeccakStatic
import Verif.Props.KeyGen
import Verif.Props.KeyGenError
import Verif.Props.KeyUniform
import Verif.Props.Keys
import Verif.Props.Leak
import Verif.Props.LibraryAsIs
import Verif.Props.LowMC
import Verif.Props.LowMCTables
import Verif.Props.Merkle
import Verif.Props.OneWay
import Verif.Props.Overlap
import Verif.Props.P3Example
import Verif.Props.P3Privacy
import Verif.Props.P3Sign
import Verif.Props.P3Verify
import Verif.Props.Params
import Verif.Props.Print
import Verif.Props.RandomOther
import Verif.Props.Recover
import Verif.Props.Residue
import Verif.Props.Rom
import Verif.Props.RomAdapt
import Verif.Props.RomForge
import Verif.Props.RomForge3
import Verif.Props.RomStrong
import Verif.Props.Seeds
import Verif.Props.Sha3
import Verif.Props.Sizes
import Verif.Props.Soundness
import Verif.Props.Termination
import Verif.Props.Tests
import Verif.Props.Tree
import Verif.Props.Vectors
import Verif.Props.Work
import Verif.Props.WorkSign
import Verif.Props.ZkbDecode
import Verif.Props.ZkbOob
import Verif.Props.ZkbSecurity
import Verif.Props.ZkbSign
import Verif.Props.ZkbVerify
import Verif.Props.ZkbZk
